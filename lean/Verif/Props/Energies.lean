import Verif.Proofs.Keep
import Verif.Props.Enforce

/-! # C24, C26, C27, C31: energies of sublevels, transition frequencies, orientation, selection rules -/

namespace AtomTk
open Util World

/-! ## C24 -/

/-- The fine-structure level a sublevel belongs to. -/
def World.owner (w : World) : Ref → Nat
  | .fine i => i
  | .hyp j => (w.hf j).parent
  | .zee k => (w.hf (w.zl k).parent).parent

/-- Energies read from a sublevel or level `r`, after moving the fine-structure level `i` by `δ`. -/
theorem refHz_move (w : World) (i : Nat) (δ : ℚ) (r : Ref) (e : ℚ) (h : w.refHz r = .ok e) :
    (w.setE i (w.eHz i + δ)).refHz r = .ok (if w.owner r = i then e + δ else e) := by
  have hh : ∀ j e, w.hHz j = .ok e →
      (w.setE i (w.eHz i + δ)).hHz j = .ok (if (w.hf j).parent = i then e + δ else e) := by
    intro j e h
    have hs : (w.setE i (w.eHz i + δ)).hShift j = w.hShift j := by
      unfold hShift setE setLv
      simp only
      by_cases hp : (w.hf j).parent = i
      · rw [hp]; simp
      · simp [upd_ne _ _ _ hp]
    unfold hHz at h ⊢
    rw [hs]
    cases hsh : w.hShift j with
    | error er => rw [hsh] at h; simp [bind, Except.bind] at h
    | ok s =>
      rw [hsh] at h
      simp only [bind, Except.bind, Except.ok.injEq] at h ⊢
      unfold eHz setE setLv at *
      simp only
      by_cases hp : (w.hf j).parent = i
      · rw [if_pos hp, hp, upd_same]
        rw [hp] at h
        simp only
        rw [← h]; ring
      · rw [if_neg hp, upd_ne _ _ _ hp]; exact h
  cases r with
  | fine k =>
    simp only [refHz, Except.ok.injEq, World.owner] at h ⊢
    subst h
    unfold eHz setE setLv
    by_cases hk : k = i
    · subst hk; simp
    · simp [upd_ne _ _ _ hk, hk]
  | hyp j => exact hh j e h
  | zee k =>
    simp only [refHz, zHz] at h ⊢
    cases hp : w.hHz (w.zl k).parent with
    | error er => rw [hp] at h; simp [bind, Except.bind] at h
    | ok p =>
      rw [hp] at h
      have e1 := hh _ _ hp
      have e2 : (w.setE i (w.eHz i + δ)).zl = w.zl := rfl
      have e3 : (w.setE i (w.eHz i + δ)).zShiftHz k = w.zShiftHz k := rfl
      rw [e2, e1, e3]
      cases hz : w.zShiftHz k with
      | error er => rw [hz] at h; simp [bind, Except.bind] at h
      | ok s =>
        rw [hz] at h
        simp only [bind, Except.bind, Except.ok.injEq] at h ⊢
        rw [← h]
        by_cases hc : w.owner (.zee k) = i
        · rw [if_pos hc, if_pos (show (w.hf (w.zl k).parent).parent = i from hc)]; ring
        · rw [if_neg hc, if_neg (show ¬(w.hf (w.zl k).parent).parent = i from hc)]

/-- Assigning the energy of a level of any kind. -/
def World.setRef (r : Ref) (v : ℚ) : PyM Unit :=
  match r with
  | .fine i => PyM.modify fun w => w.setE i v
  | .hyp j => setHLevel j v
  | .zee k => setZLevel k v

/-- C24: after assigning the energy of a sublevel it reads back the value, its fine-structure level and all sublevels of
that level have moved by the same amount, and nothing else has moved. -/
theorem C24_rigid (w : World) (r : Ref) (v e : ℚ) (h : w.refHz r = .ok e) :
    ∃ w' δ, setRef r v w = (w', .ok ()) ∧ w'.refHz r = .ok v ∧
      ∀ r' e', w.refHz r' = .ok e' → w'.refHz r' = .ok (if w.owner r' = w.owner r then e' + δ else e') := by
  have key : ∀ i, i = w.owner r → setRef r v w = (w.setE i (w.eHz i + (v - e)), .ok ()) →
      ∃ w' δ, setRef r v w = (w', .ok ()) ∧ w'.refHz r = .ok v ∧
      ∀ r' e', w.refHz r' = .ok e' → w'.refHz r' = .ok (if w.owner r' = w.owner r then e' + δ else e') := by
    intro i hi hs
    refine ⟨_, v - e, hs, ?_, fun r' e' h' => ?_⟩
    · rw [refHz_move w i (v - e) r e h, if_pos hi.symm]; congr 1; ring
    · rw [refHz_move w i (v - e) r' e' h', hi]
  cases r with
  | fine i =>
    refine key i rfl ?_
    simp only [refHz, Except.ok.injEq] at h
    subst h
    simp only [setRef, PyM.modify]
    congr 2; ring
  | hyp j =>
    refine key _ rfl ?_
    simp only [refHz] at h
    simp only [setRef, setHLevel, h, World.owner]
  | zee k =>
    refine key _ rfl ?_
    simp only [refHz] at h
    have hp : ∃ p, w.hHz (w.zl k).parent = .ok p := by
      unfold zHz at h
      cases hp : w.hHz (w.zl k).parent with
      | error er => rw [hp] at h; simp [bind, Except.bind] at h
      | ok p => exact ⟨p, rfl⟩
    obtain ⟨p, hp⟩ := hp
    simp only [setRef, setZLevel, h, hp, setHLevel, World.owner]
    congr 3; ring

/-- Nuclear spin 1/2, a level with A = 4 and g_J = 2, sublevels accessed. -/
def hfOps : List Op :=
  [.newLevel (demoTerm 'g') 100 2 4 0 0 none, .newLevel (demoTerm 'a') 500 2 8 0 0 none,
   .addLevel 0 true none, .addLevel 1 false none, .getLevel ("g 2S1/2 F=1 mF=0".toList), .getSub (.fine 1) "F=1".toList]

/-- Setting the Zeeman sublevel `g F=1 mF=0` from 101 to 111 moves the manifold of `g` by 10. -/
example : let w := runAll hfOps (emptyAtom (1/2) 0)
    w.refHz (.zee 1) = .ok 101 ∧ w.refHz (.hyp 0) = .ok 97 ∧
    (setRef (.zee 1) 111 w).1.refHz (.zee 1) = .ok 111 ∧ (setRef (.zee 1) 111 w).1.refHz (.hyp 0) = .ok 107 ∧
    (setRef (.zee 1) 111 w).1.refHz (.fine 0) = .ok 110 ∧ (setRef (.zee 1) 111 w).1.refHz (.hyp 3) = w.refHz (.hyp 3) := by
  decide +kernel

/-! ## C26 -/

/-- C26: the frequency is the distance of the two energies. -/
theorem C26_distance (w : World) (t : Nat) :
    0 ≤ w.freqHz t ∧ (w.freqHz t = w.eHz (w.tr t).e1 - w.eHz (w.tr t).e2 ∨ w.freqHz t = w.eHz (w.tr t).e2 - w.eHz (w.tr t).e1) ∧
    (w.freqHz t = 0 ↔ w.eHz (w.tr t).e1 = w.eHz (w.tr t).e2) := by
  unfold freqHz
  refine ⟨abs_nonneg _, ?_, ?_⟩
  · rcases le_total 0 (w.eHz (w.tr t).e1 - w.eHz (w.tr t).e2) with h | h
    · exact .inl (abs_of_nonneg h)
    · right; rw [abs_of_nonpos h]; ring
  · rw [abs_eq_zero, sub_eq_zero]

/-- C26: two transitions between the same levels, given in either order, have the same frequency in every state. -/
theorem C26_order (w : World) (t t' : Nat) (h1 : (w.tr t').e1 = (w.tr t).e2) (h2 : (w.tr t').e2 = (w.tr t).e1) :
    w.freqHz t' = w.freqHz t := by
  unfold freqHz; rw [h1, h2, abs_sub_comm]

/-- C26 for a transition object returned by the constructor, in any later state: the distance of the current energies
of the two levels it was built from, in whichever order they were given. -/
theorem C26_constructed (w w1 : World) (a b t : Nat) (f : Option ℚ) (A : AArg) (ali : Option Str)
    (h : World.newTrans a b f A ali w = (w1, .ok t)) (ops : List Op) :
    let w' := runAll ops w1
    w'.freqHz t = max (w'.eHz a) (w'.eHz b) - min (w'.eHz a) (w'.eHz b) := by
  intro w'
  obtain ⟨g, hg⟩ := newTransObj_def a b ali w
  have ht : t = w.ntr ∧ (w1.tr w.ntr).e1 = a ∧ (w1.tr w.ntr).e2 = b ∧ w1.ntr = w.ntr + 1 := by
    unfold World.newTrans at h
    rw [PyM.bind_ok hg] at h
    set w2 : World := { newTransHeap w a b ali with g := g } with hw2
    rcases hr : newTransAttrs w.ntr f A w2 with ⟨w3, r⟩
    cases r with
    | error e => rw [PyM.bind_err hr] at h; simp at h
    | ok u =>
      rw [PyM.bind_ok hr] at h
      simp only [pure, Prod.mk.injEq, Except.ok.injEq] at h
      obtain ⟨rfl, rfl⟩ := h
      refine ⟨rfl, ?_⟩
      unfold newTransAttrs at hr
      split at hr
      · simp at hr
      · split at hr
        · simp at hr
        · simp only at hr
          split at hr
          · simp only [Prod.mk.injEq, and_true] at hr
            rw [← hr]; simp [setTr, hw2, newTransHeap]
          · split at hr
            · simp only [Prod.mk.injEq, and_true] at hr
              rw [← hr]; simp [setTr, hw2, newTransHeap]
            · simp at hr
  obtain ⟨rfl, h1, h2, h3⟩ := ht
  have hc := (run_keep ops w1).core w.ntr (by omega)
  simp only [World.core, Prod.mk.injEq] at hc
  show |w'.eHz (w'.tr w.ntr).e1 - w'.eHz (w'.tr w.ntr).e2| = _
  have e1 : (w'.tr w.ntr).e1 = a := hc.1.trans h1
  have e2 : (w'.tr w.ntr).e2 = b := hc.2.1.trans h2
  rw [e1, e2]
  rcases le_total (w'.eHz a) (w'.eHz b) with h | h
  · rw [max_eq_right h, min_eq_left h, abs_of_nonpos (by linarith)]; ring
  · rw [max_eq_left h, min_eq_right h, abs_of_nonneg (by linarith)]

example : let w := runAll (threeLevels 0 5 9 ++ [.newTrans 2 1 none .none none]) (emptyAtom 0 0)
    w.freqHz 0 = 4 := by decide +kernel

/-! ## C27 -/

/-- The full claim. -/
def C27_full : Prop := ∀ w t, Reachable w → t < w.ntr →
  w.eHz (w.tr t).lower ≤ w.eHz (w.tr t).upper ∧
    (((w.tr t).upper = (w.tr t).e1 ∧ (w.tr t).lower = (w.tr t).e2) ∨
      ((w.tr t).upper = (w.tr t).e2 ∧ (w.tr t).lower = (w.tr t).e1))

/-- What always holds: upper and lower are the two levels.  (Missing from C27: the order, which is decided once at
construction and not updated when energies change.) -/
theorem C27_ends_partial {w : World} (hr : Reachable w) (t : Nat) (ht : t < w.ntr) :
    ((w.tr t).upper = (w.tr t).e1 ∧ (w.tr t).lower = (w.tr t).e2) ∨
      ((w.tr t).upper = (w.tr t).e2 ∧ (w.tr t).lower = (w.tr t).e1) := by
  rcases hr.inv.2 t ht with ⟨h1, h2⟩ | ⟨h1, h2⟩
  · exact .inr ⟨h2.symm, h1.symm⟩
  · exact .inl ⟨h1.symm, h2.symm⟩

/-- At construction the order is right. -/
theorem C27_constructed_partial (w w1 : World) (a b t : Nat) (f : Option ℚ) (A : AArg) (ali : Option Str)
    (h : World.newTrans a b f A ali w = (w1, .ok t)) : w1.eHz (w1.tr t).lower ≤ w1.eHz (w1.tr t).upper := by
  obtain ⟨g, hg⟩ := newTransObj_def a b ali w
  unfold World.newTrans at h
  rw [PyM.bind_ok hg] at h
  set w2 : World := { newTransHeap w a b ali with g := g } with hw2
  have key : w2.eHz (w2.tr w.ntr).lower ≤ w2.eHz (w2.tr w.ntr).upper := by
    simp only [hw2, newTransHeap, upd_same]
    show w.eHz _ ≤ w.eHz _
    split <;> linarith
  rcases hr : newTransAttrs w.ntr f A w2 with ⟨w3, r⟩
  cases r with
  | error e => rw [PyM.bind_err hr] at h; simp at h
  | ok u =>
    rw [PyM.bind_ok hr] at h
    simp only [pure, Prod.mk.injEq, Except.ok.injEq] at h
    obtain ⟨rfl, rfl⟩ := h
    unfold newTransAttrs at hr
    split at hr
    · simp at hr
    · split at hr
      · simp at hr
      · simp only at hr
        split at hr
        · simp only [Prod.mk.injEq, and_true] at hr
          rw [← hr]; simpa [setTr, eHz] using key
        · split at hr
          · simp only [Prod.mk.injEq, and_true] at hr
            rw [← hr]; simpa [setTr, eHz] using key
          · simp at hr

/-- Moving a level past the other one leaves the transition upside down. -/
theorem C27_fails : ¬C27_full := by
  intro h
  let ops := threeLevels 0 5 9 ++ [.newTrans 0 1 none .none none, .setEnergy 0 7]
  have := (h (runAll ops (emptyAtom 0 0)) 0 (demo_reachable (by decide +kernel)) (by decide +kernel)).1
  revert this
  decide +kernel

example : let ops := threeLevels 0 5 9 ++ [.newTrans 1 0 none .none none]
    Reachable (runAll ops (emptyAtom 0 0)) ∧ 0 < (runAll ops (emptyAtom 0 0)).ntr ∧
      ((runAll ops (emptyAtom 0 0)).tr 0).upper = 1 :=
  ⟨demo_reachable (by decide +kernel), by decide +kernel, by decide +kernel⟩

/-! ## C31 -/

/-- The selection rules as given in the property. -/
def rules (J J' : ℚ) (p p' : Int) (different : Prop) : (Prop × Prop × Prop) :=
  (|J - J'| ≤ 1 ∧ p ≠ p', |J - J'| ≤ 1 ∧ p = p', |J - J'| ≤ 2 ∧ p = p' ∧ different)

/-- The full claim: in every reachable state, every transition has the multipole types given by the rules, and none
between J = 0 and J = 0. -/
def C31_full : Prop := ∀ w t J J', Reachable w → t < w.ntr → (w.lv (w.tr t).e1).term.J = some J →
  (w.lv (w.tr t).e2).term.J = some J' →
  let R := rules J J' (w.lv (w.tr t).e1).term.parity (w.lv (w.tr t).e2).term.parity ((w.tr t).e1 ≠ (w.tr t).e2)
  ((w.tr t).allowed.1 = true ↔ R.1) ∧ ((w.tr t).allowed.2.1 = true ↔ R.2.1) ∧ ((w.tr t).allowed.2.2 = true ↔ R.2.2) ∧
  (J = 0 → J' = 0 → (w.tr t).allowed = (false, false, false))

/-- The invariant behind it. -/
def RulesInv (w : World) : Prop := ∀ t, t < w.ntr → (w.tr t).e1 < w.nlv ∧ (w.tr t).e2 < w.nlv ∧
  w.transAllowed (w.tr t).e1 (w.tr t).e2 = .ok (w.tr t).allowed

theorem RulesInv.keep {w w' : World} (h : RulesInv w) (hk : Keep w w') (hn : w'.ntr = w.ntr) : RulesInv w' := by
  intro t ht
  rw [hn] at ht
  obtain ⟨h1, h2, h3⟩ := h t ht
  have hc := hk.core t ht
  simp only [World.core, Prod.mk.injEq] at hc
  obtain ⟨c1, c2, _, _, _, _, c7⟩ := hc
  rw [c1, c2, c7]
  refine ⟨lt_of_lt_of_le h1 hk.nlv, lt_of_lt_of_le h2 hk.nlv, ?_⟩
  unfold transAllowed at h3 ⊢
  rw [hk.term _ h1, hk.term _ h2]
  exact h3

theorem trAddToAtom_ntr (t : Nat) (w : World) : (World.trAddToAtom t w).1.ntr = w.ntr := by rw [trAddToAtom_fst]

theorem step_ntr (op : Op) (w : World) (h : ∀ a b f A ali, op ≠ .newTrans a b f A ali) : (op.run w).1.ntr = w.ntr := by
  cases op with
  | newTrans a b f A ali => exact absurd rfl (h a b f A ali)
  | newLevel t E l A B C ali =>
    show (Op.void _ w).1.ntr = _
    rw [Op.void_fst]; rfl
  | addLevel i p ali =>
    obtain ⟨w', h1, h2⟩ := addLevel_def i p ali w
    show (World.addLevel i p ali w).1.ntr = _
    rw [h1, h2.ntr]; rfl
  | setItem key i =>
    obtain ⟨w', h1, h2⟩ := addLevel_def i false (some key) w
    show (World.addLevel i false (some key) w).1.ntr = _
    rw [h1, h2.ntr]; rfl
  | delItem key =>
    show (levelsDel key w).1.ntr = _
    unfold levelsDel
    split <;> rfl
  | getLevel key =>
    show (Op.void _ w).1.ntr = _
    rw [Op.void_fst]; exact (levelsGet_frame key w).ntr
  | getSub r key =>
    show (Op.void _ w).1.ntr = _
    rw [Op.void_fst]; exact (refItem_frame r key w).ntr
  | setAlias r al => exact (setAlias_frame r al w).ntr
  | setEnergy i v => rfl
  | setHEnergy j v => exact (setHLevel_frame j v w).ntr
  | setZEnergy k v => exact (setZLevel_frame k v w).ntr
  | setConsts i l A B C => rfl
  | setQuad k q => rfl
  | setB b => rfl
  | addTransition σ t =>
    show (World.addTransition σ t w).1.ntr = _
    rw [(addTransition_frame σ t w).ntr, trAddToAtom_ntr]
  | setFrequency σ t f => exact (setFrequency_frame σ t f w).ntr
  | enforce σ => exact (enforce_frame σ none w).ntr
  | fillSub t keys => rfl

theorem Reachable.rules {w : World} (hr : Reachable w) : RulesInv w := by
  induction hr with
  | empty I B => intro t ht; simp [emptyAtom] at ht
  | @step w op hr hs ih =>
    by_cases hop : ∀ a b f A ali, op ≠ .newTrans a b f A ali
    · exact ih.keep (step_keep op w) (step_ntr op w hop)
    · push Not at hop
      obtain ⟨a, b, f, A, ali, rfl⟩ := hop
      obtain ⟨ha, hb, hJ0, hJ1, hA⟩ := hs
      obtain ⟨J0, hJ0⟩ := Option.ne_none_iff_exists'.mp hJ0
      obtain ⟨J1, hJ1⟩ := Option.ne_none_iff_exists'.mp hJ1
      have hna := hr.wf.node _ _ ha
      have hnb := hr.wf.node _ _ hb
      have e := newTrans_ok w a b f A ali J0 J1 hna.2.1 hJ0 hJ1 hA
      show RulesInv (Op.void _ w).1
      rw [Op.void_fst]
      intro t ht
      rw [e] at ht ⊢
      simp only at ht ⊢
      by_cases htn : t = w.ntr
      · subst htn
        simp only [upd_same, finished]
        refine ⟨hna.2.2, hnb.2.2, ?_⟩
        simp [transAllowed, hJ0, hJ1]
      · rw [upd_ne _ _ _ htn]
        exact ih t (by omega)

/-- C31, the rules (everything except the exclusion of 0 → 0). -/
theorem C31_rules_partial (w : World) (t : Nat) (J J' : ℚ) (hr : Reachable w) (ht : t < w.ntr)
    (hJ : (w.lv (w.tr t).e1).term.J = some J) (hJ' : (w.lv (w.tr t).e2).term.J = some J') :
    let R := AtomTk.rules J J' (w.lv (w.tr t).e1).term.parity (w.lv (w.tr t).e2).term.parity ((w.tr t).e1 ≠ (w.tr t).e2)
    ((w.tr t).allowed.1 = true ↔ R.1) ∧ ((w.tr t).allowed.2.1 = true ↔ R.2.1) ∧ ((w.tr t).allowed.2.2 = true ↔ R.2.2) := by
  obtain ⟨_, _, h⟩ := hr.rules t ht
  unfold transAllowed at h
  rw [hJ, hJ'] at h
  simp only [Except.ok.injEq] at h
  rw [← h]
  simp only [allowedTypes, AtomTk.rules, Bool.and_eq_true, decide_eq_true_eq, Bool.not_eq_true', decide_eq_false_iff_not,
    abs_sub_comm J' J]
  exact ⟨trivial, trivial, by tauto⟩

/-- C31: dipole radiation with change of parity excludes the other two. -/
theorem C31_exclusive (w : World) (t : Nat) (J J' : ℚ) (hr : Reachable w) (ht : t < w.ntr)
    (hJ : (w.lv (w.tr t).e1).term.J = some J) (hJ' : (w.lv (w.tr t).e2).term.J = some J')
    (h : (w.tr t).allowed.1 = true) : (w.tr t).allowed = (true, false, false) := by
  obtain ⟨h1, h2, h3⟩ := C31_rules_partial w t J J' hr ht hJ hJ'
  have hne := (h1.1 h).2
  refine Prod.ext h (Prod.ext ?_ ?_)
  · rw [Bool.eq_false_iff]; exact fun hc => hne (h2.1 hc).2
  · rw [Bool.eq_false_iff]; exact fun hc => hne (h3.1 hc).2.1

/-- C31: the multipole types do not depend on the order of the levels. -/
theorem C31_symmetric (w : World) (t t' : Nat) (J J' : ℚ) (hr : Reachable w) (ht : t < w.ntr) (ht' : t' < w.ntr)
    (hJ : (w.lv (w.tr t).e1).term.J = some J) (hJ' : (w.lv (w.tr t).e2).term.J = some J')
    (h1 : (w.tr t').e1 = (w.tr t).e2) (h2 : (w.tr t').e2 = (w.tr t).e1) : (w.tr t').allowed = (w.tr t).allowed := by
  obtain ⟨a1, a2, a3⟩ := C31_rules_partial w t J J' hr ht hJ hJ'
  obtain ⟨b1, b2, b3⟩ := C31_rules_partial w t' J' J hr ht' (by rw [h1]; exact hJ') (by rw [h2]; exact hJ)
  simp only [AtomTk.rules, h1, h2] at a1 a2 a3 b1 b2 b3
  refine Prod.ext ?_ (Prod.ext ?_ ?_)
  · rw [Bool.eq_iff_iff, a1, b1, abs_sub_comm J' J, ne_comm]
  · rw [Bool.eq_iff_iff, a2, b2, abs_sub_comm J' J, eq_comm]
  · rw [Bool.eq_iff_iff, a3, b3, abs_sub_comm J' J, eq_comm, @ne_comm _ (w.tr t).e2]

/-- Levels with J = 0. -/
def zeroTerm (c : Char) (par : Bool) : Term :=
  ⟨[c], if par then "1S*".toList else "1S".toList, some 0, none, none, 100, { l := some 0, s := some 0 }⟩

/-- Two J = 0 levels of different parity and a transition between them. -/
def zeroOps : List Op :=
  [.newLevel (zeroTerm 'g' false) 0 0 0 0 0 none, .newLevel (zeroTerm 'a' true) 5 0 0 0 0 none,
   .addLevel 0 false none, .addLevel 1 false none, .newTrans 0 1 none .none none]

/-- The transition J = 0 → J = 0 counts as an allowed dipole transition. -/
theorem C31_fails : ¬C31_full := by
  intro h
  have := (h (runAll zeroOps (emptyAtom 0 0)) 0 0 0 (demo_reachable (by decide +kernel)) (by decide +kernel)
    (by decide +kernel) (by decide +kernel)).2.2.2 rfl rfl
  revert this
  decide +kernel

example : let w := runAll zeroOps (emptyAtom 0 0)
    Reachable w ∧ (w.tr 0).allowed = (true, false, false) := ⟨demo_reachable (by decide +kernel), by decide +kernel⟩

end AtomTk
