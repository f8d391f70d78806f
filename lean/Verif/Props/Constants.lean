import Verif.Props.Subs

/-! # C134: the constants of a level change only by assignment -/

namespace AtomTk
open World

/-- The constants of a level: Landé factor, hyperfine A, B, C. -/
def consts (e : ELevel) : ℚ × ℚ × ℚ × ℚ := (e.lande, e.hfA, e.hfB, e.hfC)

/-- Levels that exist in `w`, other than those in `X`, have the same constants in `w'`. -/
def CKeep (X : Nat → Prop) (w w' : World) : Prop := w.nlv ≤ w'.nlv ∧ ∀ i, i < w.nlv → ¬X i → consts (w'.lv i) = consts (w.lv i)

namespace CKeep
variable {X : Nat → Prop}

theorem refl (w : World) : CKeep X w w := ⟨le_refl _, fun _ _ _ => rfl⟩

theorem trans (a b c : World) (h1 : CKeep X a b) (h2 : CKeep X b c) : CKeep X a c :=
  ⟨h1.1.trans h2.1, fun i hi hx => (h2.2 i (lt_of_lt_of_le hi h1.1) hx).trans (h1.2 i hi hx)⟩

theorem same {w w' : World} (h : w'.nlv = w.nlv) (h' : w'.lv = w.lv) : CKeep X w w' := ⟨h.ge, fun i _ _ => by rw [h']⟩

theorem frame {w w' : World} (h : LFrame w w') : CKeep X w w' := by
  refine ⟨h.nlv.ge, fun i _ _ => ?_⟩
  obtain ⟨s, e⟩ := h.lv i
  rw [e]; rfl

theorem setLv (w : World) (i : Nat) (e : ELevel) (h : X i ∨ consts e = consts (w.lv i)) : CKeep X w (w.setLv i e) := by
  refine ⟨le_refl _, fun k _ hx => ?_⟩
  by_cases hk : k = i
  · subst hk
    simp only [World.setLv, upd_same]
    exact h.resolve_left hx
  · simp only [World.setLv, upd_ne _ _ _ hk]

theorem setE (w : World) (i : Nat) (v : ℚ) : CKeep X w (w.setE i v) := setLv w i _ (.inr rfl)
theorem setFixed (w : World) (i : Nat) (b : Bool) : CKeep X w (w.setFixed i b) := setLv w i _ (.inr rfl)

theorem setHLevel (j : Nat) (v : ℚ) (w : World) : CKeep X w (World.setHLevel j v w).1 := by
  unfold World.setHLevel
  split
  · exact setE ..
  · exact refl w

theorem setZLevel (k : Nat) (v : ℚ) (w : World) : CKeep X w (World.setZLevel k v w).1 := by
  unfold World.setZLevel
  split
  · exact setHLevel ..
  · exact refl w
  · exact refl w

theorem setAlias (r : Ref) (al : Str) (w : World) : CKeep X w (World.setAlias r al w).1 := by
  unfold World.setAlias
  split
  · rename_i i
    have h := setLv (X := X) w i { w.lv i with ali := some al } (.inr rfl)
    simp only
    split
    · exact h
    · exact h
  · exact same rfl rfl

theorem addLevel (i : Nat) (p : Bool) (ali : Option Str) (w : World) : CKeep X w (World.addLevel i p ali w).1 := by
  unfold World.addLevel
  refine PyM.bind_rel (CKeep X) trans (fun w => ?_) (fun _ => ?_) w
  · exact setLv (X := X) w i { w.lv i with inAtom := true } (.inr rfl)
  refine PyM.bind_rel (CKeep X) trans (fun w => ?_) (fun _ => ?_)
  · cases ali with
    | none => exact refl w
    | some a => exact setAlias _ _ _
  refine PyM.bind_rel (CKeep X) trans (fun w => ?_) (fun _ w => ?_)
  · unfold regAlias
    split
    · exact same rfl rfl
    · exact refl w
  · cases p
    · exact refl w
    · exact frame (populateHF_frame i w)

theorem enfEdge (u v : Str) (w : World) : CKeep X w (World.enfEdge u v w).1 := by
  unfold World.enfEdge
  split
  · exact refl w
  · split
    · exact refl w
    · refine trans _ _ _ (trans _ _ _ ?_ (setFixed _ _ _)) (setFixed _ _ _)
      split
      · exact same rfl rfl
      · split <;> exact setE ..

theorem enfEdges (l : List (Str × Str)) (w : World) : CKeep X w (World.enfEdges l w).1 := by
  induction l generalizing w with
  | nil => exact refl w
  | cons p t ih =>
    obtain ⟨u, v⟩ := p
    unfold World.enfEdges
    exact PyM.bind_rel (CKeep X) trans (enfEdge u v) (fun _ => ih) w

theorem enforce (σ : Ord') (trig : Option (Str × Str)) (w : World) : CKeep X w (World.enforce σ trig w).1 := by
  unfold World.enforce
  split
  · exact refl w
  · refine enfComps_rel (CKeep X) refl trans σ _ (fun c w => ?_) _ _ _
    unfold enfComp
    split
    · exact refl w
    · exact refl w
    · exact enfEdges _ _

theorem setFrequency (σ : Ord') (t : Nat) (f : ℚ) (w : World) : CKeep X w (World.setFrequency σ t f w).1 := by
  unfold World.setFrequency
  split
  · simp only
    set w1 := if truthy (w.tr t).setFreq = true ∧ (w.lv (w.tr t).upper).fixed = true ∧
        (w.lv (w.tr t).lower).fixed = true then w.setFixed (w.tr t).upper false else w with hw1
    have h1 : CKeep X w w1 := by
      rw [hw1]; split
      · exact setFixed ..
      · exact refl w
    have h2 : CKeep X w1 (w1.setTr t { w1.tr t with setFreq := some f }) := same rfl rfl
    split
    · exact trans _ _ _ h1 (trans _ _ _ h2 (enforce ..))
    · exact trans _ _ _ h1 h2
  · exact refl w

theorem addTransition (σ : Ord') (t : Nat) (w : World) : CKeep X w (World.addTransition σ t w).1 := by
  unfold World.addTransition
  refine PyM.bind_rel (CKeep X) trans (fun w => ?_) (fun _ => ?_) w
  · rw [trAddToAtom_fst]
    exact same rfl rfl
  refine PyM.bind_rel (CKeep X) trans (fun w => ?_) (fun _ w => ?_)
  · unfold regTAlias
    split
    · exact same rfl rfl
    · exact refl w
  · unfold enforceIfSet
    split
    · split
      · exact enforce ..
      · exact refl w
    · exact refl w

theorem newTrans (a b : Nat) (f : Option ℚ) (A : AArg) (ali : Option Str) (w : World) :
    CKeep X w (World.newTrans a b f A ali w).1 := by
  unfold World.newTrans
  refine PyM.bind_rel (CKeep X) trans (fun w => ?_) (fun t => ?_) w
  · obtain ⟨g, hg⟩ := newTransObj_def a b ali w
    rw [hg]
    exact same rfl rfl
  · refine PyM.bind_rel (CKeep X) trans (fun w => ?_) (fun _ w => refl w)
    unfold newTransAttrs
    split
    · exact refl w
    · split
      · exact refl w
      · simp only
        split
        · exact same rfl rfl
        · split
          · exact same rfl rfl
          · exact same rfl rfl

theorem step (op : Op) (w : World) (hC : ∀ i l A B C, op = .setConsts i l A B C → X i) : CKeep X w (op.run w).1 := by
  cases op with
  | newLevel t E l A B C ali =>
    show CKeep X w (Op.void _ w).1
    rw [Op.void_fst]
    refine ⟨Nat.le_succ _, fun i hi _ => ?_⟩
    simp only [World.newLevel]
    rw [upd_ne _ _ _ (Nat.ne_of_lt hi)]
  | addLevel i p ali => exact addLevel ..
  | setItem key i => exact addLevel ..
  | delItem key =>
    show CKeep X w (levelsDel key w).1
    unfold levelsDel
    split
    · exact same rfl rfl
    · exact refl w
  | getLevel key =>
    show CKeep X w (Op.void _ w).1
    rw [Op.void_fst]; exact frame (levelsGet_frame key w)
  | getSub r key =>
    show CKeep X w (Op.void _ w).1
    rw [Op.void_fst]; exact frame (refItem_frame r key w)
  | setAlias r al => exact setAlias ..
  | setEnergy i v => exact setE ..
  | setHEnergy j v => exact setHLevel ..
  | setZEnergy k v => exact setZLevel ..
  | setConsts i l A B C => exact setLv w i _ (.inl (hC i l A B C rfl))
  | setQuad k q => exact same rfl rfl
  | setB b => exact same rfl rfl
  | newTrans a b f A ali =>
    show CKeep X w (Op.void _ w).1
    rw [Op.void_fst]; exact newTrans ..
  | addTransition σ t => exact addTransition ..
  | setFrequency σ t f => exact setFrequency ..
  | enforce σ => exact enforce ..
  | fillSub t keys => exact same rfl rfl

theorem run (ops : List Op) (w : World) (hC : ∀ i l A B C, Op.setConsts i l A B C ∈ ops → X i) : CKeep X w (runAll ops w) := by
  induction ops generalizing w with
  | nil => exact refl w
  | cons op ops ih =>
    refine trans _ _ _ (step op w (fun i l A B C e => hC i l A B C (by rw [e]; simp))) (ih _ (fun i l A B C h => ?_))
    exact hC i l A B C (by simp [h])

end CKeep

/-- The calls never assign a constant of level `i`. -/
def NeverConsts (i : Nat) (ops : List Op) : Prop := ∀ l A B C, Op.setConsts i l A B C ∉ ops

/-- C134: the constants and the term of a level stay as given to its constructor until one of them is assigned, whatever else is
done to the atom: energies, field, frequencies, enforcement, sublevels, aliases, deletion. -/
theorem C134_kept (w w1 : World) (t : Term) (E l A B C : ℚ) (ali : Option Str) (i : Nat)
    (h : World.newLevel t E l A B C ali w = (w1, .ok i)) (ops : List Op) (hn : NeverConsts i ops) :
    let e := (runAll ops w1).lv i
    e.term = t ∧ e.lande = l ∧ e.hfA = A ∧ e.hfB = B ∧ e.hfC = C := by
  obtain ⟨rfl, rfl⟩ := (show _ = w1 ∧ w.nlv = i by simpa [World.newLevel] using h)
  intro e
  have h1 := (CKeep.run (X := fun k => k ≠ w.nlv) ops (World.newLevel t E l A B C ali w).1
    (fun k l A B C hm hk => hn l A B C (hk ▸ hm))).2 w.nlv (Nat.lt_succ_self _) (by simp)
  have h2 := (run_keep ops (World.newLevel t E l A B C ali w).1).term w.nlv (Nat.lt_succ_self _)
  simp only [World.newLevel, upd_same, consts, Prod.mk.injEq] at h1 h2
  exact ⟨h2, h1.1, h1.2.1, h1.2.2.1, h1.2.2.2⟩

/-- C134: assigning the constants of one level leaves those of all others, and they then stay as assigned. -/
theorem C134_assigned (w : World) (i : Nat) (l A B C : ℚ) (hi : i < w.nlv) (ops : List Op) (hn : NeverConsts i ops) :
    let w' := runAll ops ((Op.setConsts i l A B C).run w).1
    consts (w'.lv i) = (l, A, B, C) ∧
    ∀ k, k < w.nlv → k ≠ i → NeverConsts k ops → consts (w'.lv k) = consts (w.lv k) := by
  intro w'
  have h1 := (CKeep.run (X := fun k => k ≠ i) ops ((Op.setConsts i l A B C).run w).1
    (fun k l A B C hm hk => hn l A B C (hk ▸ hm))).2 i hi (by simp)
  refine ⟨?_, fun k hk hki hkn => ?_⟩
  · rw [show w' = runAll ops ((Op.setConsts i l A B C).run w).1 from rfl, h1]
    simp [Op.run, PyM.modify, World.setLv, consts]
  · exact (CKeep.run (X := fun j => j ≠ k) (.setConsts i l A B C :: ops) w
      (fun j l' A' B' C' hm hj => by
        subst hj
        rcases List.mem_cons.1 hm with e | e
        · cases e; exact hki rfl
        · exact hkn l' A' B' C' e)).2 k hk (by simp)

theorem runAll_app (xs ys : List Op) (w : World) : runAll (xs ++ ys) w = runAll ys (runAll xs w) := by
  induction xs generalizing w with
  | nil => rfl
  | cons x xs ih => exact ih _

/-- C134: the energies of the Zeeman sublevels are those of the constants given to the constructor of their level, in every history
that assigns none of them (and no Landé factor of any level too late, C25). -/
theorem C134_energies (I B0 : ℚ) (pre post : List Op) (t : Term) (E l A B C : ℚ) (ali : Option Str) (i z : Nat) (J F m s : ℚ)
    (ht : TimelyAll (pre ++ .newLevel t E l A B C ali :: post) (emptyAtom I B0)) (hi : i = (runAll pre (emptyAtom I B0)).nlv)
    (hn : NeverConsts i post) :
    let w := runAll (pre ++ .newLevel t E l A B C ali :: post) (emptyAtom I B0)
    z < w.nzl → w.owner (.zee z) = i → (w.zl z).term.J = some J → (w.zl z).term.F = some F → (w.zl z).term.mF = some m →
    hfShift A B C I J F = .ok s →
    w.refHz (.zee z) = .ok (w.eHz i + s + gFactor l I J F * m * muB * w.B + (w.zl z).quad * w.B ^ 2) := by
  intro w hz ho hJ hF hm hs
  have hI : w.I = I := (run_keep _ _).I
  have hk := C134_kept (runAll pre (emptyAtom I B0)) (World.newLevel t E l A B C ali (runAll pre (emptyAtom I B0))).1
    t E l A B C ali i (by subst hi; rfl) post hn
  have hw : w = runAll post (World.newLevel t E l A B C ali (runAll pre (emptyAtom I B0))).1 := by
    show runAll _ _ = _
    rw [runAll_app]
    show runAll post (Op.void _ _).1 = _
    rw [Op.void_fst]
  rw [← hw] at hk
  obtain ⟨-, k1, k2, k3, k4⟩ := hk
  have := C25_current_partial I B0 _ ht z hz i J F m s ho.symm hJ hF hm
  rw [show runAll (pre ++ .newLevel t E l A B C ali :: post) (emptyAtom I B0) = w from rfl, k1, k2, k3, k4, hI] at this
  exact this hs

/-- The sublevel F=1, mF=1 of the level `g` with A = 4 and g_J = 2, I = 1/2, in a field of 3. -/
example : let w := runAll ([] ++ .newLevel (demoTerm 'g') 100 2 4 0 0 none :: (hfOps.tail ++ [.setB 3])) (emptyAtom (1/2) 0)
    w.refHz (.zee 2) = .ok (w.eHz 0 + 1 + gFactor 2 (1/2) (1/2) 1 * 1 * muB * w.B + (w.zl 2).quad * w.B ^ 2) ∧ w.B = 3 := by
  have h0 : ∀ (w : World) (op : Op), (∀ i l A B D, op ≠ .setConsts i l A B D) → ∀ i l A B D, op = .setConsts i l A B D → Timely w i l :=
    fun _ _ h i l A B D e => absurd e (h i l A B D)
  refine ⟨?_, by decide +kernel⟩
  have key := C134_energies (1/2) 0 [] (hfOps.tail ++ [.setB 3]) (demoTerm 'g') 100 2 4 0 0 none 0 2 (1/2) 1 1 1 ?_ (by decide +kernel) ?_
  · exact key (by decide +kernel) (by decide +kernel) (by decide +kernel) (by decide +kernel) (by decide +kernel) (by decide +kernel)
  · exact ⟨by decide +kernel, h0 _ _ (by simp), by decide +kernel, h0 _ _ (by simp), by decide +kernel, h0 _ _ (by simp),
      by decide +kernel, h0 _ _ (by simp), by decide +kernel, h0 _ _ (by simp), by decide +kernel, h0 _ _ (by simp),
      by decide +kernel, h0 _ _ (by simp), trivial⟩
  · intro l A B C h
    simp [hfOps] at h

/-- All four constants different, and calls of every kind that do not touch them. -/
example : let ops : List Op := threeLevels 0 1 2 ++ [.newLevel (demoTerm 'e') 7 2 3 5 11 none, .addLevel 3 true none,
      .newTrans 0 3 (some 9) .none none, .setConsts 1 1 1 1 1, .enforce idOrd, .setEnergy 3 10, .setB 4, .delItem (demoName 'e')]
    ∃ pre post, ops = pre ++ .newLevel (demoTerm 'e') 7 2 3 5 11 none :: post ∧ (∀ l A B C, Op.setConsts 3 l A B C ∉ post) ∧
      consts ((runAll ops (emptyAtom (1/2) 0)).lv 3) = (2, 3, 5, 11) ∧ (runAll ops (emptyAtom (1/2) 0)).eHz 3 = 10 := by
  intro ops
  refine ⟨threeLevels 0 1 2, _, rfl, ?_, by decide +kernel, by decide +kernel⟩
  intro l A B C h
  simp at h

end AtomTk
