import Verif.Proofs.Keep
import Verif.Proofs.Level

/-! # The sublevels of a level, at any time of any history -/

namespace AtomTk
open Util

/-- The term of a hyperfine sublevel. -/
def Term.withF (t : Term) (F : ℚ) : Term := { t with F := some (t.F.getD F), mF := none }

/-- The term of a Zeeman sublevel. -/
def Term.withM (t : Term) (m : ℚ) : Term := { t with mF := some m }

theorem makeCopy_num (t : Term) (F : ℚ) : t.makeCopy (.num F) .none = .ok (t.withF F) := by
  unfold Term.makeCopy Term.withF
  cases hF : t.F <;> cases hJ : t.J <;> simp [Term.mk', Term.argOf, fracToFloat, bind, Except.bind]

theorem makeCopy_m (t : Term) (m : ℚ) : t.makeCopy .none (.num m) = .ok (t.withM m) := by
  unfold Term.makeCopy Term.withM
  cases hF : t.F <;> cases hJ : t.J <;> simp [Term.mk', Term.argOf, fracToFloat, bind, Except.bind]

namespace World

/-- Sublevel dictionaries refer to objects made for them. -/
structure SubsInv (w : World) : Prop where
  lvFresh : ∀ i, w.nlv ≤ i → (w.lv i).inAtom = false ∧ (w.lv i).subs = []
  hfFresh : ∀ j, w.nhf ≤ j → (w.hf j).term.F = none ∧ (w.hf j).subs = []
  hfOf : ∀ i k j, (w.lv i).subs.get? k = some j → j < w.nhf ∧ (w.hf j).parent = i ∧
    ∃ F, k = fKey F ∧ (w.hf j).term = (w.lv i).term.withF F
  zlOf : ∀ j k z, (w.hf j).subs.get? k = some z → z < w.nzl ∧ (w.zl z).parent = j ∧
    ∃ m, k = mKey m ∧ (w.zl z).term = (w.hf j).term.withM m

/-- Every hyperfine level and every Zeeman level was made from its parent. -/
structure MadeInv (w : World) : Prop where
  hfMade : ∀ j, j < w.nhf → (w.hf j).parent < w.nlv ∧ ∃ F, (w.hf j).term = (w.lv (w.hf j).parent).term.withF F
  zlMade : ∀ z, z < w.nzl → (w.zl z).parent < w.nhf ∧ ∃ m, (w.zl z).term = (w.hf (w.zl z).parent).term.withM m

/-- Calls that leave the sublevels and Landé factors alone. -/
structure SFrame (w w' : World) : Prop where
  I : w'.I = w.I
  nlv : w'.nlv = w.nlv
  nhf : w'.nhf = w.nhf
  nzl : w'.nzl = w.nzl
  hf : w'.hf = w.hf
  zl : ∀ z, (w'.zl z).parent = (w.zl z).parent ∧ (w'.zl z).term = (w.zl z).term ∧ (w'.zl z).gF = (w.zl z).gF
  lv : ∀ i, (w'.lv i).term = (w.lv i).term ∧ (w'.lv i).subs = (w.lv i).subs ∧ (w'.lv i).lande = (w.lv i).lande
  fresh : ∀ i, w.nlv ≤ i → (w'.lv i).inAtom = (w.lv i).inAtom

theorem SFrame.refl (w : World) : SFrame w w :=
  ⟨rfl, rfl, rfl, rfl, rfl, fun _ => ⟨rfl, rfl, rfl⟩, fun _ => ⟨rfl, rfl, rfl⟩, fun _ _ => rfl⟩

theorem SFrame.trans (a b c : World) (h1 : SFrame a b) (h2 : SFrame b c) : SFrame a c :=
  ⟨h2.I.trans h1.I, h2.nlv.trans h1.nlv, h2.nhf.trans h1.nhf, h2.nzl.trans h1.nzl, h2.hf.trans h1.hf,
    fun z => ⟨(h2.zl z).1.trans (h1.zl z).1, (h2.zl z).2.1.trans (h1.zl z).2.1, (h2.zl z).2.2.trans (h1.zl z).2.2⟩,
    fun i => ⟨(h2.lv i).1.trans (h1.lv i).1, (h2.lv i).2.1.trans (h1.lv i).2.1, (h2.lv i).2.2.trans (h1.lv i).2.2⟩,
    fun i hi => (h2.fresh i (by rw [h1.nlv]; exact hi)).trans (h1.fresh i hi)⟩

/-- Only what the invariant speaks about has to be kept. -/
theorem SubsInv.of {w w' : World} (h : SubsInv w) (nlv : w'.nlv = w.nlv) (nhf : w'.nhf = w.nhf) (nzl : w'.nzl = w.nzl) (hf : w'.hf = w.hf)
    (zl : ∀ z, (w'.zl z).parent = (w.zl z).parent ∧ (w'.zl z).term = (w.zl z).term)
    (lv : ∀ i, (w'.lv i).term = (w.lv i).term ∧ (w'.lv i).subs = (w.lv i).subs)
    (fresh : ∀ i, w.nlv ≤ i → (w'.lv i).inAtom = (w.lv i).inAtom) : SubsInv w' := by
  refine ⟨fun i hi => ?_, fun j hj => ?_, fun i k j hk => ?_, fun j k z hk => ?_⟩
  · rw [nlv] at hi
    rw [fresh i hi, (lv i).2]; exact h.lvFresh i hi
  · rw [nhf] at hj
    rw [hf]; exact h.hfFresh j hj
  · rw [(lv i).2] at hk
    rw [nhf, hf, (lv i).1]; exact h.hfOf i k j hk
  · rw [hf] at hk
    rw [nzl, hf, (zl z).1, (zl z).2]; exact h.zlOf j k z hk

theorem SubsInv.frame {w w' : World} (h : SubsInv w) (hf : SFrame w w') : SubsInv w' :=
  h.of hf.nlv hf.nhf hf.nzl hf.hf (fun z => ⟨(hf.zl z).1, (hf.zl z).2.1⟩) (fun i => ⟨(hf.lv i).1, (hf.lv i).2.1⟩) hf.fresh

/-! ## Calls that leave the sublevels alone -/

theorem sframe_setLv (w : World) (i : Nat) (e : ELevel) (h1 : e.term = (w.lv i).term) (h2 : e.subs = (w.lv i).subs)
    (h3 : e.lande = (w.lv i).lande) (h4 : e.inAtom = (w.lv i).inAtom) : SFrame w (w.setLv i e) := by
  refine ⟨rfl, rfl, rfl, rfl, rfl, fun _ => ⟨rfl, rfl, rfl⟩, fun k => ?_, fun k _ => ?_⟩
  all_goals
    by_cases hk : k = i
    · subst hk; simp [setLv, h1, h2, h3, h4]
    · simp [setLv, upd_ne _ _ _ hk]

theorem sframe_setE (w : World) (i : Nat) (v : ℚ) : SFrame w (w.setE i v) := sframe_setLv w i _ rfl rfl rfl rfl
theorem sframe_setFixed (w : World) (i : Nat) (b : Bool) : SFrame w (w.setFixed i b) := sframe_setLv w i _ rfl rfl rfl rfl

theorem sframe_same {w w' : World} (h1 : w'.I = w.I) (h2 : w'.nlv = w.nlv) (h3 : w'.nhf = w.nhf) (h4 : w'.nzl = w.nzl)
    (h5 : w'.hf = w.hf) (h6 : w'.zl = w.zl) (h7 : w'.lv = w.lv) : SFrame w w' :=
  ⟨h1, h2, h3, h4, h5, fun _ => by rw [h6]; exact ⟨rfl, rfl, rfl⟩, fun _ => by rw [h7]; exact ⟨rfl, rfl, rfl⟩, fun _ _ => by rw [h7]⟩

theorem setHLevel_sframe (j : Nat) (v : ℚ) (w : World) : SFrame w (setHLevel j v w).1 := by
  unfold setHLevel
  split
  · exact sframe_setE ..
  · exact .refl w

theorem setZLevel_sframe (k : Nat) (v : ℚ) (w : World) : SFrame w (setZLevel k v w).1 := by
  unfold setZLevel
  split
  · exact setHLevel_sframe ..
  · exact .refl w
  · exact .refl w

theorem setAlias_sframe (r : Ref) (al : Str) (w : World) : SFrame w (setAlias r al w).1 := by
  unfold setAlias
  split
  · rename_i i
    have h := sframe_setLv w i { w.lv i with ali := some al } rfl rfl rfl rfl
    simp only
    split
    · exact SFrame.trans _ _ _ h (sframe_same rfl rfl rfl rfl rfl rfl rfl)
    · exact h
  · exact sframe_same rfl rfl rfl rfl rfl rfl rfl

theorem setAliasOpt_sframe (i : Nat) (ali : Option Str) (w : World) : SFrame w (setAliasOpt i ali w).1 := by
  cases ali with
  | none => exact .refl w
  | some a => exact setAlias_sframe _ _ _

theorem regAlias_sframe (i : Nat) (w : World) : SFrame w (regAlias i w).1 := by
  unfold regAlias
  split
  · exact sframe_same rfl rfl rfl rfl rfl rfl rfl
  · exact .refl w

theorem lvAddToAtom_sframe (i : Nat) (w : World) (hi : i < w.nlv) : SFrame w (lvAddToAtom i w).1 := by
  refine ⟨rfl, rfl, rfl, rfl, rfl, fun _ => ⟨rfl, rfl, rfl⟩, fun k => ?_, fun k hk => ?_⟩
  · simp only [lvAddToAtom, PyM.modify]
    by_cases hk : k = i
    · subst hk; simp
    · simp [upd_ne _ _ _ hk]
  · simp only [lvAddToAtom, PyM.modify]
    rw [upd_ne _ _ _ (by omega)]

theorem enfEdge_sframe (u v : Str) (w : World) : SFrame w (enfEdge u v w).1 := by
  unfold enfEdge
  split
  · exact .refl w
  · split
    · exact .refl w
    · refine SFrame.trans _ _ _ (SFrame.trans _ _ _ ?_ (sframe_setFixed _ _ _)) (sframe_setFixed _ _ _)
      split
      · exact sframe_same rfl rfl rfl rfl rfl rfl rfl
      · split <;> exact sframe_setE ..

theorem enfEdges_sframe (l : List (Str × Str)) (w : World) : SFrame w (enfEdges l w).1 := by
  induction l generalizing w with
  | nil => exact .refl w
  | cons p t ih =>
    obtain ⟨u, v⟩ := p
    unfold enfEdges
    exact PyM.bind_rel SFrame SFrame.trans (enfEdge_sframe u v) (fun _ => ih) w

theorem enforce_sframe (σ : Ord') (trig : Option (Str × Str)) (w : World) : SFrame w (enforce σ trig w).1 := by
  unfold enforce
  split
  · exact .refl w
  · refine enfComps_rel SFrame SFrame.refl SFrame.trans σ _ (fun c w => ?_) _ _ _
    unfold enfComp
    split
    · exact .refl w
    · exact .refl w
    · exact enfEdges_sframe _ _

theorem setFrequency_sframe (σ : Ord') (t : Nat) (f : ℚ) (w : World) : SFrame w (setFrequency σ t f w).1 := by
  unfold setFrequency
  split
  · simp only
    set w1 := if truthy (w.tr t).setFreq = true ∧ (w.lv (w.tr t).upper).fixed = true ∧
        (w.lv (w.tr t).lower).fixed = true then w.setFixed (w.tr t).upper false else w with hw1
    have h1 : SFrame w w1 := by
      rw [hw1]; split
      · exact sframe_setFixed ..
      · exact .refl w
    have h2 : SFrame w1 (w1.setTr t { w1.tr t with setFreq := some f }) := sframe_same rfl rfl rfl rfl rfl rfl rfl
    split
    · exact SFrame.trans _ _ _ h1 (SFrame.trans _ _ _ h2 (enforce_sframe ..))
    · exact SFrame.trans _ _ _ h1 h2
  · exact .refl w

theorem trAddToAtom_sframe (t : Nat) (w : World) : SFrame w (trAddToAtom t w).1 := by
  rw [trAddToAtom_fst]
  exact sframe_same rfl rfl rfl rfl rfl rfl rfl

theorem addTransition_sframe (σ : Ord') (t : Nat) (w : World) : SFrame w (addTransition σ t w).1 := by
  unfold addTransition
  refine PyM.bind_rel SFrame SFrame.trans (trAddToAtom_sframe t) (fun _ => ?_) w
  refine PyM.bind_rel SFrame SFrame.trans (fun w => ?_) (fun _ w => ?_)
  · unfold regTAlias
    split
    · exact sframe_same rfl rfl rfl rfl rfl rfl rfl
    · exact .refl w
  · unfold enforceIfSet
    split
    · split
      · exact enforce_sframe ..
      · exact .refl w
    · exact .refl w

theorem newTrans_sframe (a b : Nat) (f : Option ℚ) (A : AArg) (ali : Option Str) (w : World) :
    SFrame w (newTrans a b f A ali w).1 := by
  obtain ⟨g, hg⟩ := newTransObj_def a b ali w
  unfold newTrans
  rw [PyM.bind_ok hg]
  have key : SFrame w (newTransAttrs w.ntr f A { newTransHeap w a b ali with g := g }).1 := by
    unfold newTransAttrs
    split
    · exact sframe_same rfl rfl rfl rfl rfl rfl rfl
    · split
      · exact sframe_same rfl rfl rfl rfl rfl rfl rfl
      · simp only
        split
        · exact sframe_same rfl rfl rfl rfl rfl rfl rfl
        · split
          · exact sframe_same rfl rfl rfl rfl rfl rfl rfl
          · exact sframe_same rfl rfl rfl rfl rfl rfl rfl
  rcases hr : newTransAttrs w.ntr f A { newTransHeap w a b ali with g := g } with ⟨w2, r⟩
  rw [hr] at key
  cases r with
  | error e => rw [PyM.bind_err hr]; exact key
  | ok u => rw [PyM.bind_ok hr]; exact key

/-! ## Populating -/

/-- What a successful step of the first loop does. -/
def popHF1' (i : Nat) (f g : ℚ) (w : World) : World :=
  { w with
    nhf := w.nhf + 1
    hf := upd w.hf w.nhf ⟨(w.lv i).term.withF f, i, g, []⟩
    lv := upd w.lv i { w.lv i with subs := (w.lv i).subs.set (fKey f) w.nhf } }

theorem popHF1_cases (i : Nat) (f : ℚ) (w : World) :
    (∃ J F g, (w.lv i).term.J = some J ∧ ((w.lv i).term.withF f).F = some F ∧ compGF (w.lv i).lande w.I J F = .ok g ∧
      popHF1 i f w = (popHF1' i f g w, .ok ())) ∨ ∃ e, popHF1 i f w = (w, .error e) := by
  unfold popHF1
  rw [makeCopy_num]
  simp only
  cases hJ : ((w.lv i).term.withF f).J with
  | none => exact .inr ⟨_, rfl⟩
  | some J =>
    cases hF : ((w.lv i).term.withF f).F with
    | none => exact .inr ⟨_, rfl⟩
    | some F =>
      simp only
      cases hg : compGF (w.lv i).lande w.I J F with
      | error e => exact .inr ⟨_, rfl⟩
      | ok g => exact .inl ⟨J, F, g, hJ, rfl, hg, rfl⟩

/-- What a successful step of the second loop does. -/
def popZ1' (j : Nat) (m g : ℚ) (w : World) : World :=
  { w with
    nzl := w.nzl + 1
    zl := upd w.zl w.nzl ⟨(w.hf j).term.withM m, j, g, 0⟩
    hf := upd w.hf j { w.hf j with subs := (w.hf j).subs.set (mKey m) w.nzl } }

theorem popZ1_cases (j : Nat) (m : ℚ) (w : World) :
    (∃ J F g, (w.hf j).term.J = some J ∧ (w.hf j).term.F = some F ∧ compGF (w.lv (w.hf j).parent).lande w.I J F = .ok g ∧
      popZ1 j m w = (popZ1' j m g w, .ok ())) ∨ ∃ e, popZ1 j m w = (w, .error e) := by
  unfold popZ1
  rw [makeCopy_m]
  simp only
  cases hJ : ((w.hf j).term.withM m).J with
  | none => exact .inr ⟨_, rfl⟩
  | some J =>
    cases hF : ((w.hf j).term.withM m).F with
    | none => exact .inr ⟨_, rfl⟩
    | some F =>
      simp only
      cases hg : compGF (w.lv (w.hf j).parent).lande w.I J F with
      | error e => exact .inr ⟨_, rfl⟩
      | ok g => exact .inl ⟨J, F, g, hJ, hF, hg, rfl⟩

theorem SubsInv.popHF1' {w : World} (h : SubsInv w) (i : Nat) (hi : i < w.nlv) (f g : ℚ) : SubsInv (popHF1' i f g w) := by
  refine ⟨fun k hk => ?_, fun j hj => ?_, fun k key j hk => ?_, fun j key z hk => ?_⟩
  · have hk' : w.nlv ≤ k := hk
    simp only [World.popHF1', upd_ne _ _ _ (show k ≠ i by omega)]
    exact h.lvFresh k hk'
  · have hj' : w.nhf + 1 ≤ j := hj
    simp only [World.popHF1', upd_ne _ _ _ (show j ≠ w.nhf by omega)]
    exact h.hfFresh j (by omega)
  · have old : ∀ j, j < w.nhf → upd w.hf w.nhf ⟨(w.lv i).term.withF f, i, g, []⟩ j = w.hf j := fun j hj => upd_ne _ _ _ (by omega)
    by_cases hki : k = i
    · subst hki
      simp only [World.popHF1', upd_same] at hk ⊢
      rw [Dict.get?_set] at hk
      split at hk
      · rename_i he
        cases hk
        exact ⟨Nat.lt_succ_self _, by simp, f, he.symm, by simp⟩
      · obtain ⟨h1, h2, h3⟩ := h.hfOf k key j hk
        rw [old j h1]
        exact ⟨by omega, h2, h3⟩
    · simp only [World.popHF1', upd_ne _ _ _ hki] at hk ⊢
      obtain ⟨h1, h2, h3⟩ := h.hfOf k key j hk
      rw [old j h1]
      exact ⟨by omega, h2, h3⟩
  · by_cases hj : j = w.nhf
    · subst hj
      simp [World.popHF1', Dict.get?] at hk
    · simp only [World.popHF1', upd_ne _ _ _ hj] at hk ⊢
      exact h.zlOf j key z hk

theorem SubsInv.popZ1' {w : World} (h : SubsInv w) (j : Nat) (hj : (w.hf j).term.F ≠ none) (m g : ℚ) : SubsInv (popZ1' j m g w) := by
  have hjn : j < w.nhf := by
    by_contra hc
    exact hj (h.hfFresh j (by omega)).1
  have hterm : ∀ k, (upd w.hf j { w.hf j with subs := (w.hf j).subs.set (mKey m) w.nzl } k).term = (w.hf k).term ∧
      (upd w.hf j { w.hf j with subs := (w.hf j).subs.set (mKey m) w.nzl } k).parent = (w.hf k).parent := by
    intro k
    by_cases hk : k = j
    · subst hk; simp
    · simp [upd_ne _ _ _ hk]
  refine ⟨h.lvFresh, fun k hk => ?_, fun i key k hk => ?_, fun k key z hk => ?_⟩
  · have hk' : w.nhf ≤ k := hk
    simp only [World.popZ1', upd_ne _ _ _ (show k ≠ j by omega)]
    exact h.hfFresh k hk'
  · obtain ⟨h1, h2, h3⟩ := h.hfOf i key k hk
    simp only [World.popZ1']
    rw [(hterm k).1, (hterm k).2]
    exact ⟨h1, h2, h3⟩
  · have old : ∀ z, z < w.nzl → upd w.zl w.nzl ⟨(w.hf j).term.withM m, j, g, 0⟩ z = w.zl z := fun z hz => upd_ne _ _ _ (by omega)
    by_cases hkj : k = j
    · subst hkj
      simp only [World.popZ1', upd_same] at hk ⊢
      rw [Dict.get?_set] at hk
      split at hk
      · rename_i he
        cases hk
        exact ⟨Nat.lt_succ_self _, by simp, m, he.symm, by simp⟩
      · obtain ⟨h1, h2, h3⟩ := h.zlOf k key z hk
        rw [old z h1]
        exact ⟨by omega, h2, h3⟩
    · simp only [World.popZ1', upd_ne _ _ _ hkj] at hk ⊢
      obtain ⟨h1, h2, h3⟩ := h.zlOf k key z hk
      rw [old z h1]
      exact ⟨by omega, h2, h3⟩

theorem SubsInv.popHFs {w : World} (h : SubsInv w) (i : Nat) (hi : i < w.nlv) (l : List ℚ) : SubsInv (popHFs i l w).1 := by
  induction l generalizing w with
  | nil => exact h
  | cons f fs ih =>
    rcases popHF1_cases i f w with ⟨J, F, g, _, _, _, he⟩ | ⟨e, he⟩
    · show SubsInv ((popHF1 i f >>= fun _ => World.popHFs i fs) w).1
      rw [PyM.bind_ok he]
      exact ih (h.popHF1' i hi f g) hi
    · show SubsInv ((popHF1 i f >>= fun _ => World.popHFs i fs) w).1
      rw [PyM.bind_err he]
      exact h

theorem SubsInv.popZs {w : World} (h : SubsInv w) (j : Nat) (hj : (w.hf j).term.F ≠ none) (l : List ℚ) : SubsInv (popZs j l w).1 := by
  induction l generalizing w with
  | nil => exact h
  | cons m ms ih =>
    rcases popZ1_cases j m w with ⟨J, F, g, _, _, _, he⟩ | ⟨e, he⟩
    · show SubsInv ((popZ1 j m >>= fun _ => World.popZs j ms) w).1
      rw [PyM.bind_ok he]
      refine ih (h.popZ1' j hj m g) ?_
      simpa [World.popZ1'] using hj
    · show SubsInv ((popZ1 j m >>= fun _ => World.popZs j ms) w).1
      rw [PyM.bind_err he]
      exact h

theorem SubsInv.populateHF {w : World} (h : SubsInv w) (i : Nat) : SubsInv (populateHF i w).1 := by
  unfold World.populateHF
  split
  · rename_i hin
    have hi : i < w.nlv := by
      by_contra hc
      have := (h.lvFresh i (by omega)).1
      rw [hin] at this; cases this
    split
    · exact h.popHFs i hi _
    · exact h
  · exact h

theorem SubsInv.lazyHF {w : World} (h : SubsInv w) (i : Nat) : SubsInv (lazyHF i w).1 := by
  unfold World.lazyHF
  split
  · split
    · exact h.populateHF i
    · exact h
  · exact h

theorem SubsInv.lazyZ {w : World} (h : SubsInv w) (j : Nat) : SubsInv (lazyZ j w).1 := by
  unfold World.lazyZ
  split
  · split
    · rename_i F hF
      exact h.popZs j (by rw [hF]; simp) _
    · exact h
  · exact h

/-! ## Every call is a sequence of steps -/

/-- The steps by which levels and sublevels change.  `C` restricts the assignments of Landé factors. -/
inductive SStep (C : World → Nat → ℚ → Prop) : World → World → Prop
  | frame {w w' : World} : SFrame w w' → SStep C w w'
  | consts (w : World) (i : Nat) (l A B D : ℚ) : C w i l →
      SStep C w (w.setLv i { w.lv i with lande := l, hfA := A, hfB := B, hfC := D })
  | newLevel (w : World) (t : Term) (E l A B D : ℚ) (ali : Option Str) : SStep C w (newLevel t E l A B D ali w).1
  | popHF (w : World) (i : Nat) (J : ℚ) : (w.lv i).inAtom = true → (w.lv i).term.J = some J →
      SStep C w (popHFs i (hfFs w.I J) w).1
  | popZ (w : World) (j : Nat) (F : ℚ) : (w.hf j).subs = [] → (w.hf j).term.F = some F → SStep C w (popZs j (zMs F) w).1

/-- Sequences of steps. -/
abbrev SSteps (C : World → Nat → ℚ → Prop) : World → World → Prop := Relation.ReflTransGen (SStep C)

variable {C : World → Nat → ℚ → Prop}

theorem ssteps_trans (a b c : World) (h1 : SSteps C a b) (h2 : SSteps C b c) : SSteps C a c := h1.trans h2

theorem SFrame.steps {w w' : World} (h : SFrame w w') : SSteps C w w' := .single (.frame h)

theorem populateHF_steps (i : Nat) (w : World) : SSteps C w (populateHF i w).1 := by
  unfold populateHF
  split
  · rename_i hin
    split
    · rename_i J hJ
      exact .single (.popHF w i J hin hJ)
    · exact .refl
  · exact .refl

theorem lazyHF_steps (i : Nat) (w : World) : SSteps C w (lazyHF i w).1 := by
  unfold lazyHF
  split
  · split
    · exact populateHF_steps i w
    · exact .refl
  · exact .refl

theorem lazyZ_steps (j : Nat) (w : World) : SSteps C w (lazyZ j w).1 := by
  unfold lazyZ
  split
  · rename_i h0
    split
    · rename_i F hF
      exact .single (.popZ w j F (List.length_eq_zero_iff.1 h0) hF)
    · exact .refl
  · exact .refl

theorem hfItem_steps (j : Nat) (key : Str) (w : World) : SSteps C w (hfItem j key w).1 := by
  unfold hfItem
  refine PyM.bind_rel (SSteps C) ssteps_trans (lazyZ_steps j) (fun _ => ?_) w
  refine PyM.bind_rel (SSteps C) ssteps_trans (fun w => .refl) (fun w' w => ?_)
  split
  · exact .refl
  · exact .refl

theorem lvItem_steps (i : Nat) (key : Str) (w : World) : SSteps C w (lvItem i key w).1 := by
  unfold lvItem
  refine PyM.bind_rel (SSteps C) ssteps_trans (lazyHF_steps i) (fun _ => ?_) w
  refine PyM.bind_rel (SSteps C) ssteps_trans (fun w => .refl) (fun w' w => ?_)
  split
  · refine PyM.bind_rel (SSteps C) ssteps_trans (fun w => .refl) (fun j => ?_) w
    exact PyM.bind_rel (SSteps C) ssteps_trans (hfItem_steps j _) (fun _ _ => .refl)
  · exact PyM.bind_rel (SSteps C) ssteps_trans (fun w => .refl) (fun _ _ => .refl) w

theorem refItem_steps (r : Ref) (key : Str) (w : World) : SSteps C w (refItem r key w).1 := by
  cases r with
  | fine i => exact lvItem_steps ..
  | hyp j => exact PyM.bind_rel (SSteps C) ssteps_trans (hfItem_steps j key) (fun _ _ => .refl) w
  | zee k => exact .refl

theorem levelsGet_steps (key : Str) (w : World) : SSteps C w (levelsGet key w).1 := by
  suffices h : PyM.Pres (SSteps C) (levelsGet key) from h w
  have tr := ssteps_trans (C := C)
  have hl : ∀ {α : Type} (r : Py α), PyM.Pres (SSteps C) (PyM.lift r) := fun _ _ => .refl
  unfold levelsGet
  refine PyM.Pres.bind tr (fun _ => .refl) (fun w1 => ?_)
  split
  · exact fun _ => .refl
  · split
    · split
      · refine PyM.Pres.bind tr (hl _) (fun i => ?_)
        exact PyM.Pres.bind tr (lvItem_steps i _) (fun r => refItem_steps r _)
      · exact fun _ => .refl
    · split
      · split
        · refine PyM.Pres.bind tr (hl _) (fun i => ?_)
          exact PyM.Pres.bind tr (lvItem_steps i _) (fun r => refItem_steps r _)
        · exact fun _ => .refl
      · split
        · split
          · exact PyM.Pres.bind tr (hl _) (fun i => lvItem_steps i _)
          · exact fun _ => .refl
        · exact PyM.Pres.bind tr (hl _) (fun _ _ => .refl)

theorem addLevel_steps (i : Nat) (p : Bool) (ali : Option Str) (w : World) (hi : i < w.nlv) : SSteps C w (addLevel i p ali w).1 := by
  unfold addLevel
  have hl : World.lvAddToAtom i w = ((World.lvAddToAtom i w).1, .ok ()) := rfl
  rw [PyM.bind_ok hl]
  refine ssteps_trans _ _ _ (lvAddToAtom_sframe i w hi).steps ?_
  refine PyM.bind_rel (SSteps C) ssteps_trans (fun w => (setAliasOpt_sframe i ali w).steps) (fun _ => ?_) _
  refine PyM.bind_rel (SSteps C) ssteps_trans (fun w => (regAlias_sframe i w).steps) (fun _ w2 => ?_)
  cases p with
  | true => exact populateHF_steps _ _
  | false => exact .refl

/-- Every sane call is a sequence of steps. -/
theorem step_steps (op : Op) (w : World) (hs : op.Sane w) (hC : ∀ i l A B D, op = .setConsts i l A B D → C w i l) :
    SSteps C w (op.run w).1 := by
  cases op with
  | newLevel t E l A B D ali =>
    show SSteps C w (Op.void _ w).1
    rw [Op.void_fst]
    exact .single (.newLevel w t E l A B D ali)
  | addLevel i p ali => exact addLevel_steps i p ali w hs.1
  | setItem key i => exact addLevel_steps i false (some key) w hs.1
  | delItem key =>
    show SSteps C w (levelsDel key w).1
    unfold levelsDel
    split
    · exact SFrame.steps (sframe_same rfl rfl rfl rfl rfl rfl rfl)
    · exact .refl
  | getLevel key =>
    show SSteps C w (Op.void _ w).1
    rw [Op.void_fst]; exact levelsGet_steps key w
  | getSub r key =>
    show SSteps C w (Op.void _ w).1
    rw [Op.void_fst]; exact refItem_steps r key w
  | setAlias r al => exact (setAlias_sframe r al w).steps
  | setEnergy i v => exact (sframe_setE w i v).steps
  | setHEnergy j v => exact (setHLevel_sframe j v w).steps
  | setZEnergy k v => exact (setZLevel_sframe k v w).steps
  | setConsts i l A B D => exact .single (.consts w i l A B D (hC i l A B D rfl))
  | setQuad k q =>
    refine SFrame.steps ⟨rfl, rfl, rfl, rfl, rfl, fun z => ?_, fun _ => ⟨rfl, rfl, rfl⟩, fun _ _ => rfl⟩
    simp only [Op.run, PyM.modify, setZl]
    by_cases h : z = k
    · subst h; simp
    · simp [upd_ne _ _ _ h]
  | setB b => exact SFrame.steps (sframe_same rfl rfl rfl rfl rfl rfl rfl)
  | newTrans a b f A ali =>
    show SSteps C w (Op.void _ w).1
    rw [Op.void_fst]; exact (newTrans_sframe ..).steps
  | addTransition σ t => exact (addTransition_sframe σ t w).steps
  | setFrequency σ t f => exact (setFrequency_sframe σ t f w).steps
  | enforce σ => exact (enforce_sframe σ none w).steps
  | fillSub t keys => exact SFrame.steps (sframe_same rfl rfl rfl rfl rfl rfl rfl)

theorem _root_.AtomTk.Reachable.steps {w : World} (h : Reachable w) : ∃ I B, SSteps (fun _ _ _ => True) (emptyAtom I B) w := by
  induction h with
  | empty I B => exact ⟨I, B, .refl⟩
  | step op _ hs ih =>
    obtain ⟨I, B, ih⟩ := ih
    exact ⟨I, B, ih.trans (step_steps op _ hs (fun _ _ _ _ _ _ => trivial))⟩

theorem SubsInv.step {w w' : World} (h : SubsInv w) (hs : SStep C w w') : SubsInv w' := by
  cases hs with
  | frame hf => exact h.frame hf
  | consts i l A B D _ =>
    refine h.of rfl rfl rfl rfl (fun _ => ⟨rfl, rfl⟩) (fun k => ?_) (fun k _ => ?_)
    all_goals
      by_cases hk : k = i
      · subst hk; simp [setLv]
      · simp [setLv, upd_ne _ _ _ hk]
  | newLevel t E l A B D ali =>
    refine ⟨fun i hi => ?_, h.hfFresh, fun i k j hk => ?_, h.zlOf⟩
    · have hi' : w.nlv + 1 ≤ i := hi
      simp only [World.newLevel, upd_ne _ _ _ (show i ≠ w.nlv by omega)]
      exact h.lvFresh i (by omega)
    · by_cases hi : i = w.nlv
      · subst hi
        simp [World.newLevel, Dict.get?] at hk
      · simp only [World.newLevel, upd_ne _ _ _ hi] at hk ⊢
        exact h.hfOf i k j hk
  | popHF i J hin hJ =>
    refine h.popHFs i ?_ _
    by_contra hc
    have := (h.lvFresh i (by omega)).1
    rw [hin] at this; cases this
  | popZ j F h0 hF => exact h.popZs j (by rw [hF]; simp) _

theorem emptyAtom_subsInv (I B : ℚ) : SubsInv (emptyAtom I B) := by
  refine ⟨fun _ _ => ⟨rfl, rfl⟩, fun _ _ => ⟨rfl, rfl⟩, ?_, ?_⟩
  · intro _ _ _ h; cases h
  · intro _ _ _ h; cases h

theorem SubsInv.steps {w w' : World} (h : SubsInv w) (hs : SSteps C w w') : SubsInv w' := by
  induction hs with
  | refl => exact h
  | tail _ hs ih => exact ih.step hs

theorem _root_.AtomTk.Reachable.subsInv {w : World} (h : Reachable w) : SubsInv w := by
  obtain ⟨I, B, h⟩ := h.steps
  exact (emptyAtom_subsInv I B).steps h

/-! ## All sublevels have a parent they were made from -/

theorem MadeInv.of {w w' : World} (h : MadeInv w) (nlv : w'.nlv = w.nlv) (nhf : w'.nhf = w.nhf) (nzl : w'.nzl = w.nzl) (hf : w'.hf = w.hf)
    (zl : ∀ z, (w'.zl z).parent = (w.zl z).parent ∧ (w'.zl z).term = (w.zl z).term)
    (lv : ∀ i, (w'.lv i).term = (w.lv i).term) : MadeInv w' := by
  refine ⟨fun j hj => ?_, fun z hz => ?_⟩
  · rw [nhf] at hj
    rw [hf, nlv, lv]; exact h.hfMade j hj
  · rw [nzl] at hz
    rw [(zl z).1, (zl z).2, nhf, hf]; exact h.zlMade z hz

theorem MadeInv.popHF1' {w : World} (h : MadeInv w) (i : Nat) (hi : i < w.nlv) (f g : ℚ) : MadeInv (popHF1' i f g w) := by
  have hterm : ∀ k, (upd w.lv i { w.lv i with subs := (w.lv i).subs.set (fKey f) w.nhf } k).term = (w.lv k).term := by
    intro k
    by_cases hk : k = i
    · subst hk; simp
    · simp [upd_ne _ _ _ hk]
  refine ⟨fun j hj => ?_, fun z hz => ?_⟩
  · have hj' : j < w.nhf + 1 := hj
    by_cases hjn : j = w.nhf
    · subst hjn
      simp only [World.popHF1', upd_same]
      exact ⟨hi, f, rfl⟩
    · simp only [World.popHF1', upd_ne _ _ _ hjn, hterm]
      exact h.hfMade j (by omega)
  · obtain ⟨h1, h2⟩ := h.zlMade z hz
    simp only [World.popHF1']
    rw [upd_ne _ _ _ (Nat.ne_of_lt h1)]
    exact ⟨by omega, h2⟩

theorem MadeInv.popZ1' {w : World} (h : MadeInv w) (j : Nat) (hj : j < w.nhf) (m g : ℚ) : MadeInv (popZ1' j m g w) := by
  have hterm : ∀ k, (upd w.hf j { w.hf j with subs := (w.hf j).subs.set (mKey m) w.nzl } k).term = (w.hf k).term ∧
      (upd w.hf j { w.hf j with subs := (w.hf j).subs.set (mKey m) w.nzl } k).parent = (w.hf k).parent := by
    intro k
    by_cases hk : k = j
    · subst hk; simp
    · simp [upd_ne _ _ _ hk]
  refine ⟨fun k hk => ?_, fun z hz => ?_⟩
  · simp only [World.popZ1']
    rw [(hterm k).1, (hterm k).2]
    exact h.hfMade k hk
  · have hz' : z < w.nzl + 1 := hz
    by_cases hzn : z = w.nzl
    · subst hzn
      simp only [World.popZ1', upd_same]
      exact ⟨hj, m, rfl⟩
    · simp only [World.popZ1', upd_ne _ _ _ hzn]
      rw [(hterm _).1]
      exact h.zlMade z (by omega)

/-- Whatever a successful step of the first loop keeps, the loop keeps. -/
theorem popHFs_inv' (P : World → Prop) (i : Nat) (l : List ℚ) (hP : ∀ w J F f g, f ∈ l → P w → (w.lv i).term.J = some J →
    ((w.lv i).term.withF f).F = some F → compGF (w.lv i).lande w.I J F = .ok g → P (popHF1' i f g w)) (w : World) (h : P w) :
    P (popHFs i l w).1 := by
  induction l generalizing w with
  | nil => exact h
  | cons f fs ih =>
    rcases popHF1_cases i f w with ⟨J, F, g, h1, h2, h3, he⟩ | ⟨e, he⟩
    · show P ((popHF1 i f >>= fun _ => World.popHFs i fs) w).1
      rw [PyM.bind_ok he]
      exact ih (fun w J F f g hf => hP w J F f g (by simp [hf])) _ (hP w J F f g (by simp) h h1 h2 h3)
    · show P ((popHF1 i f >>= fun _ => World.popHFs i fs) w).1
      rw [PyM.bind_err he]
      exact h

theorem popHFs_inv (P : World → Prop) (i : Nat) (hP : ∀ w J F f g, P w → (w.lv i).term.J = some J → ((w.lv i).term.withF f).F = some F →
    compGF (w.lv i).lande w.I J F = .ok g → P (popHF1' i f g w)) (l : List ℚ) (w : World) (h : P w) : P (popHFs i l w).1 :=
  popHFs_inv' P i l (fun w J F f g _ => hP w J F f g) w h

/-- Whatever a successful step of the second loop keeps, the loop keeps. -/
theorem popZs_inv' (P : World → Prop) (j : Nat) (l : List ℚ) (hP : ∀ w J F m g, m ∈ l → P w → (w.hf j).term.J = some J →
    (w.hf j).term.F = some F → compGF (w.lv (w.hf j).parent).lande w.I J F = .ok g → P (popZ1' j m g w)) (w : World) (h : P w) :
    P (popZs j l w).1 := by
  induction l generalizing w with
  | nil => exact h
  | cons m ms ih =>
    rcases popZ1_cases j m w with ⟨J, F, g, h1, h2, h3, he⟩ | ⟨e, he⟩
    · show P ((popZ1 j m >>= fun _ => World.popZs j ms) w).1
      rw [PyM.bind_ok he]
      exact ih (fun w J F f g hf => hP w J F f g (by simp [hf])) _ (hP w J F m g (by simp) h h1 h2 h3)
    · show P ((popZ1 j m >>= fun _ => World.popZs j ms) w).1
      rw [PyM.bind_err he]
      exact h

theorem popZs_inv (P : World → Prop) (j : Nat) (hP : ∀ w J F m g, P w → (w.hf j).term.J = some J → (w.hf j).term.F = some F →
    compGF (w.lv (w.hf j).parent).lande w.I J F = .ok g → P (popZ1' j m g w)) (l : List ℚ) (w : World) (h : P w) :
    P (popZs j l w).1 :=
  popZs_inv' P j l (fun w J F f g _ => hP w J F f g) w h

theorem MadeInv.step {w w' : World} (h : MadeInv w) (hi : SubsInv w) (hs : SStep C w w') : MadeInv w' := by
  cases hs with
  | frame hf => exact h.of hf.nlv hf.nhf hf.nzl hf.hf (fun z => ⟨(hf.zl z).1, (hf.zl z).2.1⟩) (fun i => (hf.lv i).1)
  | consts i l A B D _ =>
    refine h.of rfl rfl rfl rfl (fun _ => ⟨rfl, rfl⟩) (fun k => ?_)
    by_cases hk : k = i
    · subst hk; simp [setLv]
    · simp [setLv, upd_ne _ _ _ hk]
  | newLevel t E l A B D ali =>
    refine ⟨fun j hj => ?_, h.zlMade⟩
    obtain ⟨h1, h2⟩ := h.hfMade j hj
    simp only [World.newLevel]
    rw [upd_ne _ _ _ (Nat.ne_of_lt h1)]
    exact ⟨by omega, h2⟩
  | popHF i J hin hJ =>
    have hil : i < w.nlv := by
      by_contra hc
      have := (hi.lvFresh i (by omega)).1
      rw [hin] at this; cases this
    exact (popHFs_inv (fun w => i < w.nlv ∧ MadeInv w) i (fun w _ _ f g h _ _ _ => ⟨h.1, h.2.popHF1' i h.1 f g⟩) _ w ⟨hil, h⟩).2
  | popZ j F h0 hF =>
    have hjn : j < w.nhf := by
      by_contra hc
      have := (hi.hfFresh j (by omega)).1
      rw [hF] at this; cases this
    exact (popZs_inv (fun w => j < w.nhf ∧ MadeInv w) j (fun w _ _ f g h _ _ _ => ⟨h.1, h.2.popZ1' j h.1 f g⟩) _ w ⟨hjn, h⟩).2

theorem MadeInv.steps {w w' : World} (h : MadeInv w) (hi : SubsInv w) (hs : SSteps C w w') : MadeInv w' := by
  induction hs with
  | refl => exact h
  | tail hs' hs ih => exact ih.step (hi.steps hs') hs

theorem emptyAtom_madeInv (I B : ℚ) : MadeInv (emptyAtom I B) := by
  refine ⟨?_, ?_⟩
  · intro _ h; cases h
  · intro _ h; cases h

theorem _root_.AtomTk.Reachable.madeInv {w : World} (h : Reachable w) : MadeInv w := by
  obtain ⟨I, B, h⟩ := h.steps
  exact (emptyAtom_madeInv I B).steps (emptyAtom_subsInv I B) h

/-! ## Which keys a populated level has -/

/-- Keys after assigning to `l` one by one. -/
def addKeys : List Str → List Str → List Str
  | ks, [] => ks
  | ks, k :: l => addKeys (if k ∈ ks then ks else ks ++ [k]) l

theorem addKeys_sub (ks l : List Str) (h : ∀ k ∈ l, k ∈ ks) : addKeys ks l = ks := by
  induction l generalizing ks with
  | nil => rfl
  | cons k l ih =>
    unfold addKeys
    rw [if_pos (h k (by simp))]
    exact ih ks (fun x hx => h x (by simp [hx]))

theorem addKeys_new (ks l : List Str) (h : (ks ++ l).Nodup) : addKeys ks l = ks ++ l := by
  induction l generalizing ks with
  | nil => simp [addKeys]
  | cons k l ih =>
    unfold addKeys
    have hk : k ∉ ks := by
      intro hk
      rw [List.nodup_append] at h
      exact h.2.2 k hk k (by simp) rfl
    rw [if_neg hk, ih]
    · simp
    · simpa using h

theorem compGF_ok {F : ℚ} (hF : 0 ≤ F) (gJ I J : ℚ) : ∃ g, compGF gJ I J F = .ok g := by
  unfold compGF
  split
  · rename_i h
    have hp : 0 < F := lt_of_le_of_ne hF (Ne.symm h)
    unfold pyDiv
    rw [if_neg (by positivity)]
    exact ⟨_, rfl⟩
  · exact ⟨_, rfl⟩

theorem popHFs_ok (i : Nat) (J : ℚ) (l : List ℚ) (w : World) (hJ : (w.lv i).term.J = some J) (hF : (w.lv i).term.F = none)
    (hl : ∀ f ∈ l, 0 ≤ f) : ∃ w', popHFs i l w = (w', .ok ()) ∧ (w'.lv i).subs.keys = addKeys (w.lv i).subs.keys (l.map fKey) := by
  induction l generalizing w with
  | nil => exact ⟨w, rfl, rfl⟩
  | cons f fs ih =>
    have hg := compGF_ok (hl f (by simp)) (w.lv i).lande w.I J
    rcases popHF1_cases i f w with ⟨J', F', g, h1, h2, h3, he⟩ | ⟨e, he⟩
    · obtain ⟨w', h4, h5⟩ := ih (popHF1' i f g w) (by simp [popHF1', hJ]) (by simp [popHF1', hF]) (fun x hx => hl x (by simp [hx]))
      refine ⟨w', ?_, ?_⟩
      · show (popHF1 i f >>= fun _ => World.popHFs i fs) w = _
        rw [PyM.bind_ok he]; exact h4
      · rw [h5]
        simp only [popHF1', upd_same, Dict.keys_set, List.map_cons, addKeys]
        congr
    · exfalso
      obtain ⟨g, hg⟩ := hg
      unfold popHF1 at he
      rw [makeCopy_num] at he
      simp only [Term.withF, hJ, hF, Option.getD_none, hg] at he
      exact absurd (congrArg Prod.snd he) (by simp)

theorem popZs_ok (j : Nat) (J F : ℚ) (l : List ℚ) (w : World) (hJ : (w.hf j).term.J = some J) (hF : (w.hf j).term.F = some F)
    (hF0 : 0 ≤ F) : ∃ w', popZs j l w = (w', .ok ()) ∧ (w'.hf j).subs.keys = addKeys (w.hf j).subs.keys (l.map mKey) := by
  induction l generalizing w with
  | nil => exact ⟨w, rfl, rfl⟩
  | cons f fs ih =>
    have hg := compGF_ok hF0 (w.lv (w.hf j).parent).lande w.I J
    rcases popZ1_cases j f w with ⟨J', F', g, h1, h2, h3, he⟩ | ⟨e, he⟩
    · obtain ⟨w', h4, h5⟩ := ih (popZ1' j f g w) (by simp [popZ1', hJ]) (by simp [popZ1', hF])
      refine ⟨w', ?_, ?_⟩
      · show (popZ1 j f >>= fun _ => World.popZs j fs) w = _
        rw [PyM.bind_ok he]; exact h4
      · rw [h5]
        simp only [popZ1', upd_same, Dict.keys_set, List.map_cons, addKeys]
        congr
    · exfalso
      obtain ⟨g, hg⟩ := hg
      unfold popZ1 at he
      rw [makeCopy_m] at he
      simp only [Term.withM, hJ, hF, hg] at he
      exact absurd (congrArg Prod.snd he) (by simp)

theorem hfKeys_nodup {I J : ℚ} (hI : IsSpin I) (hJ : IsSpin J) : ((hfFs I J).map fKey).Nodup := by
  have := (hfDict_eq hI hJ).2
  unfold List.Nodup
  rw [List.pairwise_map]
  exact this

theorem zKeys_nodup {F : ℚ} (hF : IsSpin F) : ((zMs F).map mKey).Nodup := by
  have := (zDict_eq hF).2
  unfold List.Nodup
  rw [List.pairwise_map]
  exact this

/-- A populated level has all its keys, in order. -/
structure KeysInv (w : World) : Prop where
  hf : IsSpin w.I → ∀ i J, (w.lv i).term.J = some J → IsSpin J → (w.lv i).term.F = none →
    (w.lv i).subs = [] ∨ (w.lv i).subs.keys = (hfFs w.I J).map fKey
  z : ∀ j J F, (w.hf j).term.J = some J → (w.hf j).term.F = some F → IsSpin F →
    (w.hf j).subs = [] ∨ (w.hf j).subs.keys = (zMs F).map mKey

theorem keys_nil {κ α : Type _} {d : Dict κ α} (h : d = []) : d.keys = [] := by subst h; rfl

theorem KeysInv.step {w w' : World} (h : KeysInv w) (hs : SStep C w w') : KeysInv w' := by
  cases hs with
  | frame hf =>
    refine ⟨fun hI i J hJ hs hF => ?_, fun j J F => ?_⟩
    · rw [hf.I] at hI
      rw [(hf.lv i).1] at hJ hF
      rw [(hf.lv i).2.1, hf.I]
      exact h.hf hI i J hJ hs hF
    · rw [hf.hf]; exact h.z j J F
  | consts i l A B D _ =>
    refine ⟨fun hI k => ?_, h.z⟩
    by_cases hk : k = i
    · subst hk; simpa [setLv] using h.hf hI k
    · simpa [setLv, upd_ne _ _ _ hk] using h.hf hI k
  | newLevel t E l A B D ali =>
    refine ⟨fun hI i => ?_, h.z⟩
    by_cases hk : i = w.nlv
    · subst hk
      intro J _ _ _
      exact .inl (by simp [World.newLevel])
    · simpa [World.newLevel, upd_ne _ _ _ hk] using h.hf hI i
  | popHF i J hin hJ =>
    have hfr := popHFs_frame i (hfFs w.I J) w
    refine ⟨fun hI k J' hJ' hs hF => ?_, fun j J' F hJ' hF hs => ?_⟩
    · rw [hfr.I] at hI ⊢
      rw [hfr.frame.term] at hJ' hF
      by_cases hk : k = i
      · subst hk
        rw [hJ] at hJ'
        obtain rfl : J = J' := by simpa using hJ'
        obtain ⟨w', h1, h2⟩ := popHFs_ok k J (hfFs w.I J) w hJ hF (fun f hf => (hfFs_spin hI hs hf).nonneg)
        right
        rw [h1]
        simp only
        rw [h2]
        rcases h.hf hI k J hJ hs hF with h0 | h0
        · rw [keys_nil h0, addKeys_new _ _ (by simpa using hfKeys_nodup hI hs)]
          simp
        · rw [h0, addKeys_sub _ _ (fun _ h => h)]
      · have : (popHFs i (hfFs w.I J) w).1.lv k = w.lv k :=
          popHFs_inv (fun w1 => w1.lv k = w.lv k) i
            (fun w1 _ _ f g hw _ _ _ => by simp only [popHF1']; rw [upd_ne _ _ _ hk]; exact hw) _ w rfl
        rw [this]
        exact h.hf hI k J' hJ' hs hF
    · have : (popHFs i (hfFs w.I J) w).1.hf j = w.hf j ∨ ((popHFs i (hfFs w.I J) w).1.hf j).subs = [] :=
        popHFs_inv (fun w1 => w1.hf j = w.hf j ∨ (w1.hf j).subs = []) i
          (fun w1 _ _ f g hw _ _ _ => by
            simp only [popHF1']
            by_cases hj : j = w1.nhf
            · subst hj; right; simp
            · rw [upd_ne _ _ _ hj]; exact hw) _ w (.inl rfl)
      rcases this with h1 | h1
      · rw [h1] at hJ' hF ⊢
        exact h.z j J' F hJ' hF hs
      · exact .inl h1
  | popZ j F h0 hF =>
    refine ⟨fun hI k => ?_, fun k J' F' hJ' hF' hs => ?_⟩
    · have h1 : (popZs j (zMs F) w).1.lv = w.lv ∧ (popZs j (zMs F) w).1.I = w.I :=
        popZs_inv (fun w1 => w1.lv = w.lv ∧ w1.I = w.I) j (fun w1 _ _ f g hw _ _ _ => hw) _ w ⟨rfl, rfl⟩
      rw [h1.2] at hI
      rw [h1.1, h1.2]; exact h.hf hI k
    · by_cases hk : k = j
      · subst hk
        have h1 : ((popZs k (zMs F) w).1.hf k).term = (w.hf k).term :=
          popZs_inv (fun w1 => (w1.hf k).term = (w.hf k).term) k (fun w1 _ _ f g hw _ _ _ => by simpa [popZ1'] using hw) _ w rfl
        rw [h1] at hJ' hF'
        rw [hF] at hF'
        obtain rfl : F = F' := by simpa using hF'
        obtain ⟨w', h2, h3⟩ := popZs_ok k J' F (zMs F) w hJ' hF hs.nonneg
        right
        rw [h2]
        simp only
        rw [h3, keys_nil h0, addKeys_new _ _ (by simpa using zKeys_nodup hs)]
        simp
      · have h1 : (popZs j (zMs F) w).1.hf k = w.hf k :=
          popZs_inv (fun w1 => w1.hf k = w.hf k) j
            (fun w1 _ _ f g hw _ _ _ => by simp only [popZ1']; rw [upd_ne _ _ _ hk]; exact hw) _ w rfl
        rw [h1] at hJ' hF' ⊢
        exact h.z k J' F' hJ' hF' hs

theorem KeysInv.steps {w w' : World} (h : KeysInv w) (hs : SSteps C w w') : KeysInv w' := by
  induction hs with
  | refl => exact h
  | tail _ hs ih => exact ih.step hs

theorem _root_.AtomTk.Reachable.keysInv {w : World} (h : Reachable w) : KeysInv w := by
  obtain ⟨I, B, h⟩ := h.steps
  exact KeysInv.steps ⟨fun _ _ _ _ _ _ => .inl rfl, fun _ _ _ _ _ _ => .inl rfl⟩ h

/-! ## Quantum numbers of the sublevels -/

/-- Every sublevel has the quantum numbers of a member of its multiplet. -/
structure ValInv (w : World) : Prop where
  hf : ∀ j, j < w.nhf → ∃ J F, (w.hf j).term.J = some J ∧ (w.hf j).term.F = some F ∧
    ((w.lv (w.hf j).parent).term.F = none → F ∈ hfFs w.I J)
  z : ∀ z, z < w.nzl → ∃ J F m, (w.zl z).term.J = some J ∧ (w.zl z).term.F = some F ∧ (w.zl z).term.mF = some m ∧ m ∈ zMs F

theorem ValInv.step {w w' : World} (h : ValInv w) (hm : MadeInv w) (hs : SStep C w w') : ValInv w' := by
  cases hs with
  | frame hf =>
    refine ⟨fun j hj => ?_, fun z hz => ?_⟩
    · rw [hf.nhf] at hj
      rw [hf.hf, (hf.lv _).1, hf.I]; exact h.hf j hj
    · rw [hf.nzl] at hz
      rw [(hf.zl z).2.1]; exact h.z z hz
  | consts i l A B D _ =>
    refine ⟨fun j hj => ?_, h.z⟩
    have : ((w.setLv i { w.lv i with lande := l, hfA := A, hfB := B, hfC := D }).lv (w.hf j).parent).term =
        (w.lv (w.hf j).parent).term := by
      by_cases hk : (w.hf j).parent = i
      · rw [hk]; simp [setLv]
      · simp [setLv, upd_ne _ _ _ hk]
    show ∃ J F, _ ∧ _ ∧ (((w.setLv i { w.lv i with lande := l, hfA := A, hfB := B, hfC := D }).lv (w.hf j).parent).term.F = none → _)
    rw [this]; exact h.hf j hj
  | newLevel t E l A B D ali =>
    refine ⟨fun j hj => ?_, h.z⟩
    have h1 := (hm.hfMade j hj).1
    simp only [World.newLevel]
    rw [upd_ne _ _ _ (Nat.ne_of_lt h1)]
    exact h.hf j hj
  | popHF i J hin hJ =>
    refine (popHFs_inv' (fun w1 => w1.I = w.I ∧ (w1.lv i).term = (w.lv i).term ∧ ValInv w1) i (hfFs w.I J)
      (fun w1 J' F' f g hf hp h1 h2 _ => ?_) w ⟨rfl, rfl, h⟩).2.2
    obtain ⟨p1, p2, p3⟩ := hp
    have hterm : ∀ k, (upd w1.lv i { w1.lv i with subs := (w1.lv i).subs.set (fKey f) w1.nhf } k).term = (w1.lv k).term := by
      intro k
      by_cases hk : k = i
      · subst hk; simp
      · simp [upd_ne _ _ _ hk]
    refine ⟨p1, by simp [popHF1', p2], fun j hj => ?_, p3.z⟩
    have hj' : j < w1.nhf + 1 := hj
    by_cases hjn : j = w1.nhf
    · subst hjn
      simp only [popHF1', upd_same]
      refine ⟨J', F', h1, h2, fun h0 => ?_⟩
      simp only [Term.withF, h0, Option.getD_none] at h2
      rw [p2, hJ] at h1
      rw [p1]
      cases h1; cases h2; exact hf
    · simp only [popHF1', upd_ne _ _ _ hjn, hterm]
      exact p3.hf j (by omega)
  | popZ j F h0 hF =>
    refine (popZs_inv' (fun w1 => (w1.hf j).term = (w.hf j).term ∧ ValInv w1) j (zMs F)
      (fun w1 J' F' f g hf hp h1 h2 _ => ?_) w ⟨rfl, h⟩).2
    obtain ⟨p1, p3⟩ := hp
    have hterm : ∀ k, (upd w1.hf j { w1.hf j with subs := (w1.hf j).subs.set (mKey f) w1.nzl } k).term = (w1.hf k).term ∧
        (upd w1.hf j { w1.hf j with subs := (w1.hf j).subs.set (mKey f) w1.nzl } k).parent = (w1.hf k).parent := by
      intro k
      by_cases hk : k = j
      · subst hk; simp
      · simp [upd_ne _ _ _ hk]
    refine ⟨by simp [popZ1', p1], fun k hk => ?_, fun z hz => ?_⟩
    · simp only [popZ1']
      rw [(hterm k).1, (hterm k).2]
      exact p3.hf k hk
    · have hz' : z < w1.nzl + 1 := hz
      by_cases hzn : z = w1.nzl
      · subst hzn
        simp only [popZ1', upd_same]
        refine ⟨J', F', f, h1, h2, rfl, ?_⟩
        rw [p1, hF] at h2
        cases h2; exact hf
      · simp only [popZ1', upd_ne _ _ _ hzn]
        exact p3.z z (by omega)

theorem ValInv.steps {w w' : World} (h : ValInv w) (hm : MadeInv w) (hi : SubsInv w) (hs : SSteps C w w') : ValInv w' := by
  induction hs with
  | refl => exact h
  | tail hs' hs ih => exact ih.step (hm.steps hi hs') hs

theorem _root_.AtomTk.Reachable.valInv {w : World} (h : Reachable w) : ValInv w := by
  obtain ⟨I, B, h⟩ := h.steps
  refine ValInv.steps ⟨?_, ?_⟩ (emptyAtom_madeInv I B) (emptyAtom_subsInv I B) h
  · intro _ h; cases h
  · intro _ h; cases h

/-! ## Landé factors -/

/-- The factor stored in every Zeeman level is that of the current `g_J`. -/
def GInv (w : World) : Prop := ∀ z, z < w.nzl → ∃ J F, (w.zl z).term.J = some J ∧ (w.zl z).term.F = some F ∧
  compGF (w.lv (w.hf (w.zl z).parent).parent).lande w.I J F = .ok (w.zl z).gF

/-- The Landé factor of level `i` is assigned its current value, or no Zeeman level of it exists. -/
def Timely (w : World) (i : Nat) (l : ℚ) : Prop := l = (w.lv i).lande ∨ ∀ z, z < w.nzl → (w.hf (w.zl z).parent).parent ≠ i

theorem GInv.step {w w' : World} (h : GInv w) (hm : MadeInv w) (hs : SStep Timely w w') : GInv w' := by
  cases hs with
  | frame hf =>
    intro z hz
    rw [hf.nzl] at hz
    rw [(hf.zl z).1, (hf.zl z).2.1, (hf.zl z).2.2, hf.hf, (hf.lv _).2.2, hf.I]
    exact h z hz
  | consts i l A B D hT =>
    intro z hz
    have : ((w.setLv i { w.lv i with lande := l, hfA := A, hfB := B, hfC := D }).lv (w.hf (w.zl z).parent).parent).lande =
        (w.lv (w.hf (w.zl z).parent).parent).lande := by
      by_cases hk : (w.hf (w.zl z).parent).parent = i
      · rcases hT with hT | hT
        · rw [hk]; simp [setLv, hT]
        · exact absurd hk (hT z hz)
      · simp [setLv, upd_ne _ _ _ hk]
    obtain ⟨J, F, h1, h2, h3⟩ := h z hz
    exact ⟨J, F, h1, h2, (congrArg (fun x => compGF x w.I J F) this).trans h3⟩
  | newLevel t E l A B D ali =>
    intro z hz
    have h1 := (hm.hfMade _ (hm.zlMade z hz).1).1
    simp only [World.newLevel]
    rw [upd_ne _ _ _ (Nat.ne_of_lt h1)]
    exact h z hz
  | popHF i J hin hJ =>
    refine (popHFs_inv (fun w1 => (∀ z, z < w1.nzl → (w1.zl z).parent < w1.nhf) ∧ GInv w1) i
      (fun w1 J' F' f g hp h1 h2 _ => ?_) _ w ⟨fun z hz => (hm.zlMade z hz).1, h⟩).2
    obtain ⟨p1, p2⟩ := hp
    refine ⟨fun z hz => Nat.lt_succ_of_lt (p1 z hz), fun z hz => ?_⟩
    have hl : ∀ k, (upd w1.lv i { w1.lv i with subs := (w1.lv i).subs.set (fKey f) w1.nhf } k).lande = (w1.lv k).lande := by
      intro k
      by_cases hk : k = i
      · subst hk; simp
      · simp [upd_ne _ _ _ hk]
    simp only [popHF1']
    rw [upd_ne _ _ _ (Nat.ne_of_lt (p1 z hz)), hl]
    exact p2 z hz
  | popZ j F h0 hF =>
    refine popZs_inv GInv j (fun w1 J' F' f g hp h1 h2 h3 => ?_) _ w h
    have hterm : ∀ k, (upd w1.hf j { w1.hf j with subs := (w1.hf j).subs.set (mKey f) w1.nzl } k).parent = (w1.hf k).parent := by
      intro k
      by_cases hk : k = j
      · subst hk; simp
      · simp [upd_ne _ _ _ hk]
    intro z hz
    have hz' : z < w1.nzl + 1 := hz
    by_cases hzn : z = w1.nzl
    · subst hzn
      simp only [popZ1', upd_same]
      exact ⟨J', F', h1, h2, h3⟩
    · simp only [popZ1', upd_ne _ _ _ hzn, hterm]
      exact hp z (by omega)

theorem GInv.steps {w w' : World} (h : GInv w) (hm : MadeInv w) (hi : SubsInv w) (hs : SSteps Timely w w') : GInv w' := by
  induction hs with
  | refl => exact h
  | tail hs' hs ih => exact ih.step (hm.steps hi hs') hs

end World
end AtomTk
