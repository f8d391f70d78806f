import Verif.Props.Constants
import Verif.Props.SubTrans

/-!
# C179: the pattern of hyperfine and Zeeman lines is rigid
-/

namespace AtomTk
open World

/-- What the sublevels that exist in `w` are made of is the same in `w'`: quantum numbers, parents, g-factors; quadratic shifts except those in `X`, and the
field unless `b`. -/
structure PKeep (X : Nat → Prop) (b : Prop) (w w' : World) : Prop where
  I : w'.I = w.I
  B : ¬b → w'.B = w.B
  nhf : w.nhf ≤ w'.nhf
  nzl : w.nzl ≤ w'.nzl
  hf : ∀ j, j < w.nhf → (w'.hf j).term = (w.hf j).term ∧ (w'.hf j).parent = (w.hf j).parent
  zl : ∀ z, z < w.nzl → ¬X z → w'.zl z = w.zl z

namespace PKeep
variable {X : Nat → Prop} {b : Prop}

theorem refl (w : World) : PKeep X b w w := ⟨rfl, fun _ => rfl, le_refl _, le_refl _, fun _ _ => ⟨rfl, rfl⟩, fun _ _ _ => rfl⟩

theorem trans (w1 w2 w3 : World) (h1 : PKeep X b w1 w2) (h2 : PKeep X b w2 w3) : PKeep X b w1 w3 :=
  ⟨h2.I.trans h1.I, fun hb => (h2.B hb).trans (h1.B hb), h1.nhf.trans h2.nhf, h1.nzl.trans h2.nzl,
    fun j hj => ⟨(h2.hf j (hj.trans_le h1.nhf)).1.trans (h1.hf j hj).1, (h2.hf j (hj.trans_le h1.nhf)).2.trans (h1.hf j hj).2⟩,
    fun z hz hx => (h2.zl z (hz.trans_le h1.nzl) hx).trans (h1.zl z hz hx)⟩

theorem same {w w' : World} (h1 : w'.I = w.I) (h2 : w'.B = w.B) (h3 : w'.nhf = w.nhf) (h4 : w'.nzl = w.nzl) (h5 : w'.hf = w.hf) (h6 : w'.zl = w.zl) :
    PKeep X b w w' := ⟨h1, fun _ => h2, h3.ge, h4.ge, fun j _ => by rw [h5]; exact ⟨rfl, rfl⟩, fun z _ _ => by rw [h6]⟩

theorem frame {w w' : World} (h : LFrame w w') : PKeep X b w w' := by
  refine ⟨h.I, fun _ => h.B, h.nhf, h.nzl, fun j hj => ?_, fun z hz _ => h.zl z hz⟩
  obtain ⟨s, e⟩ := h.hf j hj
  rw [e]
  exact ⟨rfl, rfl⟩

theorem setLv (w : World) (i : Nat) (e : ELevel) : PKeep X b w (w.setLv i e) := same rfl rfl rfl rfl rfl rfl
theorem setE (w : World) (i : Nat) (v : ℚ) : PKeep X b w (w.setE i v) := setLv w i _
theorem setFixed (w : World) (i : Nat) (c : Bool) : PKeep X b w (w.setFixed i c) := setLv w i _

theorem setHLevel (j : Nat) (v : ℚ) (w : World) : PKeep X b w (World.setHLevel j v w).1 := by
  unfold World.setHLevel
  split
  · exact setE ..
  · exact refl w

theorem setZLevel (k : Nat) (v : ℚ) (w : World) : PKeep X b w (World.setZLevel k v w).1 := by
  unfold World.setZLevel
  split
  · exact setHLevel ..
  · exact refl w
  · exact refl w

theorem setAlias (r : Ref) (al : Str) (w : World) : PKeep X b w (World.setAlias r al w).1 := by
  unfold World.setAlias
  split
  · simp only
    split <;> exact same rfl rfl rfl rfl rfl rfl
  · exact same rfl rfl rfl rfl rfl rfl

theorem addLevel (i : Nat) (p : Bool) (ali : Option Str) (w : World) : PKeep X b w (World.addLevel i p ali w).1 := by
  unfold World.addLevel
  refine PyM.bind_rel (PKeep X b) trans (fun w => ?_) (fun _ => ?_) w
  · exact same rfl rfl rfl rfl rfl rfl
  refine PyM.bind_rel (PKeep X b) trans (fun w => ?_) (fun _ => ?_)
  · cases ali with
    | none => exact refl w
    | some a => exact setAlias _ _ _
  refine PyM.bind_rel (PKeep X b) trans (fun w => ?_) (fun _ w => ?_)
  · unfold regAlias
    split
    · exact same rfl rfl rfl rfl rfl rfl
    · exact refl w
  · cases p
    · exact refl w
    · exact frame (populateHF_frame i w)

theorem enfEdge (u v : Str) (w : World) : PKeep X b w (World.enfEdge u v w).1 := by
  unfold World.enfEdge
  split
  · exact refl w
  · split
    · exact refl w
    · refine trans _ _ _ (trans _ _ _ ?_ (setFixed _ _ _)) (setFixed _ _ _)
      split
      · exact same rfl rfl rfl rfl rfl rfl
      · split <;> exact setE ..

theorem enfEdges (l : List (Str × Str)) (w : World) : PKeep X b w (World.enfEdges l w).1 := by
  induction l generalizing w with
  | nil => exact refl w
  | cons p t ih =>
    obtain ⟨u, v⟩ := p
    unfold World.enfEdges
    exact PyM.bind_rel (PKeep X b) trans (enfEdge u v) (fun _ => ih) w

theorem enforce (σ : Ord') (trig : Option (Str × Str)) (w : World) : PKeep X b w (World.enforce σ trig w).1 := by
  unfold World.enforce
  split
  · exact refl w
  · refine enfComps_rel (PKeep X b) refl trans σ _ (fun c w => ?_) _ _ _
    unfold enfComp
    split
    · exact refl w
    · exact refl w
    · exact enfEdges _ _

theorem setFrequency (σ : Ord') (t : Nat) (f : ℚ) (w : World) : PKeep X b w (World.setFrequency σ t f w).1 := by
  unfold World.setFrequency
  split
  · simp only
    set w1 := if truthy (w.tr t).setFreq = true ∧ (w.lv (w.tr t).upper).fixed = true ∧
        (w.lv (w.tr t).lower).fixed = true then w.setFixed (w.tr t).upper false else w with hw1
    have h1 : PKeep X b w w1 := by
      rw [hw1]; split
      · exact setFixed ..
      · exact refl w
    have h2 : PKeep X b w1 (w1.setTr t { w1.tr t with setFreq := some f }) := same rfl rfl rfl rfl rfl rfl
    split
    · exact trans _ _ _ h1 (trans _ _ _ h2 (enforce ..))
    · exact trans _ _ _ h1 h2
  · exact refl w

theorem addTransition (σ : Ord') (t : Nat) (w : World) : PKeep X b w (World.addTransition σ t w).1 := by
  unfold World.addTransition
  refine PyM.bind_rel (PKeep X b) trans (fun w => ?_) (fun _ => ?_) w
  · rw [trAddToAtom_fst]
    exact same rfl rfl rfl rfl rfl rfl
  refine PyM.bind_rel (PKeep X b) trans (fun w => ?_) (fun _ w => ?_)
  · unfold regTAlias
    split
    · exact same rfl rfl rfl rfl rfl rfl
    · exact refl w
  · unfold enforceIfSet
    split
    · split
      · exact enforce ..
      · exact refl w
    · exact refl w

theorem newTrans (a c : Nat) (f : Option ℚ) (A : AArg) (ali : Option Str) (w : World) :
    PKeep X b w (World.newTrans a c f A ali w).1 := by
  unfold World.newTrans
  refine PyM.bind_rel (PKeep X b) trans (fun w => ?_) (fun t => ?_) w
  · obtain ⟨g, hg⟩ := newTransObj_def a c ali w
    rw [hg]
    exact same rfl rfl rfl rfl rfl rfl
  · refine PyM.bind_rel (PKeep X b) trans (fun w => ?_) (fun _ w => refl w)
    unfold newTransAttrs
    split
    · exact refl w
    · split
      · exact refl w
      · simp only
        split
        · exact same rfl rfl rfl rfl rfl rfl
        · split <;> exact same rfl rfl rfl rfl rfl rfl

theorem step (op : Op) (w : World) (hq : ∀ z q, op = .setQuad z q → X z) (hb : ∀ v, op = .setB v → b) : PKeep X b w (op.run w).1 := by
  cases op with
  | newLevel t E l A B C ali =>
    show PKeep X b w (Op.void _ w).1
    rw [Op.void_fst]
    exact same rfl rfl rfl rfl rfl rfl
  | addLevel i p ali => exact addLevel ..
  | setItem key i => exact addLevel ..
  | delItem key =>
    show PKeep X b w (levelsDel key w).1
    unfold levelsDel
    split
    · exact same rfl rfl rfl rfl rfl rfl
    · exact refl w
  | getLevel key =>
    show PKeep X b w (Op.void _ w).1
    rw [Op.void_fst]; exact frame (levelsGet_frame key w)
  | getSub r key =>
    show PKeep X b w (Op.void _ w).1
    rw [Op.void_fst]; exact frame (refItem_frame r key w)
  | setAlias r al => exact setAlias ..
  | setEnergy i v => exact setE ..
  | setHEnergy j v => exact setHLevel ..
  | setZEnergy k v => exact setZLevel ..
  | setConsts i l A B C => exact setLv ..
  | setQuad k q =>
    refine ⟨rfl, fun _ => rfl, le_refl _, le_refl _, fun _ _ => ⟨rfl, rfl⟩, fun z _ hx => ?_⟩
    simp only [Op.run, PyM.modify, setZl]
    rw [upd_ne]
    rintro rfl
    exact hx (hq z q rfl)
  | setB v => exact ⟨rfl, fun h => absurd (hb v rfl) h, le_refl _, le_refl _, fun _ _ => ⟨rfl, rfl⟩, fun _ _ _ => rfl⟩
  | newTrans a b f A ali =>
    show PKeep X _ w (Op.void _ w).1
    rw [Op.void_fst]; exact newTrans ..
  | addTransition σ t => exact addTransition ..
  | setFrequency σ t f => exact setFrequency ..
  | enforce σ => exact enforce ..
  | fillSub t keys => exact same rfl rfl rfl rfl rfl rfl

theorem run (ops : List Op) (w : World) (hq : ∀ z q, Op.setQuad z q ∈ ops → X z) (hb : ∀ v, Op.setB v ∈ ops → b) : PKeep X b w (runAll ops w) := by
  induction ops generalizing w with
  | nil => exact refl w
  | cons op ops ih =>
    exact trans _ _ _ (step op w (fun z q e => hq z q (by rw [e]; simp)) (fun v e => hb v (by rw [e]; simp)))
      (ih _ (fun z q h => hq z q (by simp [h])) (fun v h => hb v (by simp [h])))

end PKeep

/-- The field is never assigned. -/
def NeverB (ops : List Op) : Prop := ∀ v, Op.setB v ∉ ops
/-- The quadratic shift of the Zeeman level `z` is never assigned. -/
def NeverQuad (z : Nat) (ops : List Op) : Prop := ∀ q, Op.setQuad z q ∉ ops

/-- C179, hyperfine levels: whatever is done to the atom, short of assigning the constants of the level, a hyperfine level stays where it is relative to its level. -/
theorem C179_hyperfine {w : World} {j : Nat} {e : ℚ} (hj : j < w.nhf) (hi : (w.hf j).parent < w.nlv) (h : w.hHz j = .ok e) (ops : List Op)
    (hn : NeverConsts (w.hf j).parent ops) : (runAll ops w).hHz j = .ok (e + ((runAll ops w).eHz (w.hf j).parent - w.eHz (w.hf j).parent)) := by
  have k := PKeep.run (X := fun _ => True) (b := True) ops w (fun _ _ _ => trivial) (fun _ _ => trivial)
  have c := (CKeep.run (X := fun k => k ≠ (w.hf j).parent) ops w (fun k l A B C hm hk => hn l A B C (hk ▸ hm))).2 _ hi (by simp)
  simp only [consts, Prod.mk.injEq] at c
  unfold hHz hShift at h ⊢
  rw [(k.hf j hj).1, (k.hf j hj).2, k.I, c.2.1, c.2.2.1, c.2.2.2]
  cases hJ : (w.hf j).term.J with
  | none => rw [hJ] at h; cases h
  | some J =>
    cases hF : (w.hf j).term.F with
    | none => rw [hJ, hF] at h; cases h
    | some F =>
      rw [hJ, hF] at h
      simp only at h ⊢
      cases hs : hfShift (w.lv (w.hf j).parent).hfA (w.lv (w.hf j).parent).hfB (w.lv (w.hf j).parent).hfC w.I J F with
      | error _ => rw [hs] at h; cases h
      | ok s =>
        rw [hs] at h
        have h' : w.eHz (w.hf j).parent + s = e := Except.ok.inj h
        show Except.ok _ = Except.ok _
        rw [← h']
        congr 1
        ring

/-- C179, Zeeman levels: the same, short of assigning the field and its quadratic shift.  The g-factor was fixed when the sublevels were made. -/
theorem C179_zeeman {w : World} {z : Nat} {e : ℚ} (hz : z < w.nzl) (hj : (w.zl z).parent < w.nhf) (hi : (w.hf (w.zl z).parent).parent < w.nlv)
    (h : w.zHz z = .ok e) (ops : List Op) (hn : NeverConsts (w.hf (w.zl z).parent).parent ops) (hb : NeverB ops) (hq : NeverQuad z ops) :
    (runAll ops w).zHz z = .ok (e + ((runAll ops w).eHz (w.hf (w.zl z).parent).parent - w.eHz (w.hf (w.zl z).parent).parent)) := by
  have k := PKeep.run (X := fun k => k ≠ z) (b := False) ops w (fun k q hm hk => hq q (hk ▸ hm)) (fun v hv => hb v hv)
  unfold zHz at h ⊢
  have kz := k.zl z hz (by simp)
  cases hp : w.hHz (w.zl z).parent with
  | error _ => rw [hp] at h; cases h
  | ok p =>
    have := C179_hyperfine hj hi hp ops hn
    unfold zShiftHz at h ⊢
    rw [kz, this, k.B id]
    rw [hp] at h
    cases hm : (w.zl z).term.mF with
    | none => rw [hm] at h; cases h
    | some m =>
      rw [hm] at h
      have h' : p + zShift (w.zl z).gF m (w.zl z).quad w.B = e := Except.ok.inj h
      show Except.ok _ = Except.ok _
      rw [← h']
      congr 1
      ring

/-- The transition `t` is between the levels `i` and `k`. -/
def Between2 (w : World) (t i k : Nat) : Prop := (w.tr t).e1 = i ∧ (w.tr t).e2 = k ∨ (w.tr t).e1 = k ∧ (w.tr t).e2 = i

/-- `a` is not above `b`, and the same is true of the levels `i` and `k` they belong to. -/
def Orderly (w : World) (a b : Ref) (i k : Nat) : Prop :=
  w.eHz i ≤ w.eHz k ∧ ∃ u v, w.refHz a = .ok u ∧ w.refHz b = .ok v ∧ u ≤ v

theorem joins_freq {w : World} {t i k : Nat} (h : Between2 w t i k) (hle : w.eHz i ≤ w.eHz k) : w.freqHz t = w.eHz k - w.eHz i := by
  unfold freqHz
  rcases h with ⟨e1, e2⟩ | ⟨e1, e2⟩ <;> rw [e1, e2]
  · rw [abs_sub_comm]; exact abs_of_nonneg (by linarith)
  · exact abs_of_nonneg (by linarith)

theorem joins_run {w : World} {t i k : Nat} (ht : t < w.ntr) (h : Between2 w t i k) (ops : List Op) : Between2 (runAll ops w) t i k := by
  have := (run_keep ops w).core t ht
  simp only [core, Prod.mk.injEq] at this
  unfold Between2
  rw [this.1, this.2.1]
  exact h

/-- C179, hyperfine lines: a hyperfine line keeps its distance from the transition it belongs to, through anything that does not assign the constants of the
two levels, as long as neither the levels nor the two sublevels have crossed. -/
theorem C179_lines_partial {w : World} {x : HTr} {t a b : Nat} (hx : x.Ends a b) (ht : t < w.ntr) (hj : Between2 w t (w.hf a).parent (w.hf b).parent)
    (ha : a < w.nhf) (hb : b < w.nhf) (hi : (w.hf a).parent < w.nlv) (hk : (w.hf b).parent < w.nlv) (ops : List Op)
    (hn : NeverConsts (w.hf a).parent ops) (hm : NeverConsts (w.hf b).parent ops)
    (h0 : Orderly w (.hyp a) (.hyp b) (w.hf a).parent (w.hf b).parent)
    (h1 : Orderly (runAll ops w) (.hyp a) (.hyp b) (w.hf a).parent (w.hf b).parent) :
    ∃ f f', w.hFreq x = .ok f ∧ (runAll ops w).hFreq x = .ok f' ∧ f' - (runAll ops w).freqHz t = f - w.freqHz t := by
  obtain ⟨l0, u, v, hu, hv, huv⟩ := h0
  obtain ⟨l1, u', v', hu', hv', huv'⟩ := h1
  have e1 : u' = _ := Except.ok.inj (hu'.symm.trans (C179_hyperfine ha hi hu ops hn))
  have e2 : v' = _ := Except.ok.inj (hv'.symm.trans (C179_hyperfine hb hk hv ops hm))
  refine ⟨v - u, v' - u', hFreq_of hx hu hv rfl (by linarith), hFreq_of hx hu' hv' rfl (by linarith), ?_⟩
  rw [joins_freq hj l0, joins_freq (joins_run ht hj ops) l1, e1, e2]
  ring

/-- C179, Zeeman lines: the same, if the field and the quadratic shifts of the two sublevels are not assigned either. -/
theorem C179_zeeman_lines_partial {w : World} {x : ZTr} {t a b i k : Nat} (hx : x.Ends a b) (ht : t < w.ntr) (hj : Between2 w t i k)
    (hai : (w.hf (w.zl a).parent).parent = i) (hbk : (w.hf (w.zl b).parent).parent = k)
    (ha : a < w.nzl) (hb : b < w.nzl) (ha' : (w.zl a).parent < w.nhf) (hb' : (w.zl b).parent < w.nhf) (hi : i < w.nlv) (hk : k < w.nlv) (ops : List Op)
    (hn : NeverConsts i ops) (hm : NeverConsts k ops) (hB : NeverB ops) (hqa : NeverQuad a ops) (hqb : NeverQuad b ops)
    (h0 : Orderly w (.zee a) (.zee b) i k) (h1 : Orderly (runAll ops w) (.zee a) (.zee b) i k) :
    ∃ f f', w.zFreq x = .ok f ∧ (runAll ops w).zFreq x = .ok f' ∧ f' - (runAll ops w).freqHz t = f - w.freqHz t := by
  subst hai hbk
  obtain ⟨l0, u, v, hu, hv, huv⟩ := h0
  obtain ⟨l1, u', v', hu', hv', huv'⟩ := h1
  have e1 : u' = _ := Except.ok.inj (hu'.symm.trans (C179_zeeman ha ha' hi hu ops hn hB hqa))
  have e2 : v' = _ := Except.ok.inj (hv'.symm.trans (C179_zeeman hb hb' hk hv ops hm hB hqb))
  refine ⟨v - u, v' - u', zFreq_of hx hu hv rfl (by linarith), zFreq_of hx hu' hv' rfl (by linarith), ?_⟩
  rw [joins_freq hj l0, joins_freq (joins_run ht hj ops) l1, e1, e2]
  ring

/-- C179 as one would like it: without a condition on the order of the sublevels afterwards. -/
def C179_full : Prop := ∀ (w : World) (x : HTr) (t a b : Nat), Reachable w → x.Ends a b → t < w.ntr → Between2 w t (w.hf a).parent (w.hf b).parent →
  a < w.nhf → b < w.nhf → (w.hf a).parent < w.nlv → (w.hf b).parent < w.nlv → Orderly w (.hyp a) (.hyp b) (w.hf a).parent (w.hf b).parent →
  ∀ ops, NeverConsts (w.hf a).parent ops → NeverConsts (w.hf b).parent ops →
    ∃ f f', w.hFreq x = .ok f ∧ (runAll ops w).hFreq x = .ok f' ∧ f' - (runAll ops w).freqHz t = f - w.freqHz t

/-- Two levels with sublevels and the transition between them. -/
def rigidOps : List Op := hfOps ++ [.newTrans 0 1 none .none none]
/-- The atom after these calls. -/
def rigidAtom : World := runAll rigidOps (emptyAtom (1/2) 0)

theorem rigid_reachable : Reachable rigidAtom := (Reachable.empty _ _).runAll (by decide +kernel)

/-- C179 fails: with the transition set to 2 Hz, the sublevel of the upper level is below that of the lower one, and the line from `g F=1` to `a F=0`,
which was 7 Hz short of the transition, is 3 Hz beyond it. -/
theorem C179_fails : ¬C179_full := by
  intro h
  obtain ⟨f, f', h1, h2, h3⟩ := h rigidAtom ⟨0, 1, 2, 1, 2, none, 1, (true, false, false)⟩ 0 1 2 rigid_reachable (.inl ⟨rfl, rfl⟩) (by decide +kernel)
    (by unfold Between2; decide +kernel) (by decide +kernel) (by decide +kernel) (by decide +kernel) (by decide +kernel)
    ⟨by decide +kernel, 101, 494, by decide +kernel, by decide +kernel, by norm_num⟩ [.setFrequency idOrd 0 2]
    (by intro l A B C; simp) (by intro l A B C; simp)
  have e1 : rigidAtom.hFreq ⟨0, 1, 2, 1, 2, none, 1, (true, false, false)⟩ = .ok 393 :=
    hFreq_of (lo := 1) (up := 2) (a := 101) (b := 494) (.inl ⟨rfl, rfl⟩) (by decide +kernel) (by decide +kernel) (by norm_num) (by norm_num)
  have e2 : (runAll [.setFrequency idOrd 0 2] rigidAtom).hFreq ⟨0, 1, 2, 1, 2, none, 1, (true, false, false)⟩ = .ok 5 :=
    hFreq_of (lo := 2) (up := 1) (a := 96) (b := 101) (.inr ⟨rfl, rfl⟩) (by decide +kernel) (by decide +kernel) (by norm_num) (by norm_num)
  have e3 : rigidAtom.freqHz 0 = 400 := by decide +kernel
  have e4 : (runAll [.setFrequency idOrd 0 2] rigidAtom).freqHz 0 = 2 := by decide +kernel
  obtain rfl : f = 393 := Except.ok.inj (h1.symm.trans e1)
  obtain rfl : f' = 5 := Except.ok.inj (h2.symm.trans e2)
  rw [e3, e4] at h3
  norm_num at h3

/-- The same atom: set to 300 Hz, moved, its lower level deleted: the line stays 7 Hz short of the transition. -/
example : let ops : List Op := [.setFrequency idOrd 0 300, .setB 5, .setEnergy 1 (-20), .setEnergy 0 (-200), .delItem (demoName 'g')]
    ∃ f f', rigidAtom.hFreq ⟨0, 1, 2, 1, 2, none, 1, (true, false, false)⟩ = .ok f ∧
      (runAll ops rigidAtom).hFreq ⟨0, 1, 2, 1, 2, none, 1, (true, false, false)⟩ = .ok f' ∧ f' - (runAll ops rigidAtom).freqHz 0 = f - rigidAtom.freqHz 0 := by
  intro ops
  exact C179_lines_partial (a := 1) (b := 2) (.inl ⟨rfl, rfl⟩) (by decide +kernel) (by unfold Between2; decide +kernel) (by decide +kernel) (by decide +kernel)
    (by decide +kernel) (by decide +kernel) ops (by intro l A B C; simp [ops]) (by intro l A B C; simp [ops])
    ⟨by decide +kernel, 101, 494, by decide +kernel, by decide +kernel, by norm_num⟩
    ⟨by decide +kernel, -199, -26, by decide +kernel, by decide +kernel, by norm_num⟩

/-- And a Zeeman level of `g`: setting its energy, or that of the level, moves it with the level. -/
example : let ops : List Op := [.setEnergy 0 150, .setZEnergy 0 7, .setQuad 1 3, .setConsts 1 1 1 1 1]
    (runAll ops rigidAtom).zHz 2 = .ok (101 + ((runAll ops rigidAtom).eHz 0 - 100)) ∧ (runAll ops rigidAtom).eHz 0 ≠ 150 ∧ rigidAtom.zHz 2 = .ok 101 := by
  intro ops
  have e : (rigidAtom.hf (rigidAtom.zl 2).parent).parent = 0 := by decide +kernel
  have e0 : rigidAtom.eHz 0 = 100 := by decide +kernel
  have := C179_zeeman (w := rigidAtom) (z := 2) (e := 101) (by decide +kernel) (by decide +kernel) (by decide +kernel) (by decide +kernel) ops
    (by rw [e]; intro l A B C; simp [ops]) (by intro v; simp [ops]) (by intro q; simp [ops])
  rw [e, e0] at this
  exact ⟨this, by decide +kernel, by decide +kernel⟩

end AtomTk
