import Verif.Model.TwoAtoms
import Verif.Proofs.Subs

/-!
# Calls on one of two atoms: what they leave alone

`M` are the levels of the atom in which a call is made, `O` those of the other one.
-/

namespace AtomTk.Apart
open Util World AtomTk.Two

variable {M O : Nat → Prop}

/-- The four levels a transition refers to satisfy `P`. -/
def EndsIn (P : Nat → Prop) (x : Trans) : Prop := P x.e1 ∧ P x.e2 ∧ P x.lower ∧ P x.upper

/-- The object exists and belongs to a level in `P`. -/
def Good (P : Nat → Prop) (w : World) : Ref → Prop
  | .fine i => P i
  | .hyp j => j < w.nhf ∧ P (w.hf j).parent
  | .zee z => z < w.nzl ∧ P (w.hf (w.zl z).parent).parent

/-- The graph and the aliases of the atom are about levels in `M`; objects refer to existing ones; transitions do not mix. -/
structure Inv (M O : Nat → Prop) (w : World) : Prop where
  disj : ∀ i, M i → ¬O i
  oLt : ∀ i, O i → i < w.nlv
  mLt : ∀ i, M i → i < w.nlv
  gok : w.g.Ok
  node : ∀ n i, w.g.lev n = some i → M i
  edge : ∀ n m t, w.g.adj n m = some t → t < w.ntr ∧ EndsIn M (w.tr t)
  ali : ∀ a r, w.lalias.get? a = some r → Good M w r
  trs : ∀ t, t < w.ntr → EndsIn M (w.tr t) ∨ EndsIn O (w.tr t)
  hfOf : ∀ i k j, (w.lv i).subs.get? k = some j → j < w.nhf ∧ (w.hf j).parent = i
  zlOf : ∀ j k z, (w.hf j).subs.get? k = some z → z < w.nzl ∧ (w.zl z).parent = j
  zPar : ∀ z, z < w.nzl → (w.zl z).parent < w.nhf
  fresh : ∀ i, ¬M i → ¬O i → (w.lv i).subs = []
  made : ∀ i, M i → ∀ k j, (w.lv i).subs.get? k = some j → ∃ J F, (w.lv i).term.J = some J ∧ k = fKey F ∧ F ∈ hfFs w.I J ∧
    ((w.lv i).term.F = none → (w.hf j).term.F = some F)

/-- Nothing of the levels in `O` has changed. -/
structure Out (O : Nat → Prop) (w w' : World) : Prop where
  I : w'.I = w.I
  term : ∀ i, i < w.nlv → (w'.lv i).term = (w.lv i).term
  nlv : w.nlv ≤ w'.nlv
  nhf : w.nhf ≤ w'.nhf
  nzl : w.nzl ≤ w'.nzl
  ntr : w.ntr ≤ w'.ntr
  lv : ∀ i, O i → w'.lv i = w.lv i
  hfp : ∀ j, j < w.nhf → (w'.hf j).parent = (w.hf j).parent
  hf : ∀ j, j < w.nhf → O (w.hf j).parent → w'.hf j = w.hf j
  zlp : ∀ z, z < w.nzl → (w'.zl z).parent = (w.zl z).parent
  zl : ∀ z, z < w.nzl → O (w.hf (w.zl z).parent).parent → w'.zl z = w.zl z
  tre : ∀ t, t < w.ntr → (w'.tr t).e1 = (w.tr t).e1 ∧ (w'.tr t).e2 = (w.tr t).e2 ∧ (w'.tr t).lower = (w.tr t).lower ∧
    (w'.tr t).upper = (w.tr t).upper
  tr : ∀ t, t < w.ntr → O (w.tr t).e1 → w'.tr t = w.tr t

theorem Out.refl (w : World) : Out O w w :=
  ⟨rfl, fun _ _ => rfl, le_refl _, le_refl _, le_refl _, le_refl _, fun _ _ => rfl, fun _ _ => rfl, fun _ _ _ => rfl, fun _ _ => rfl, fun _ _ _ => rfl,
    fun _ _ => ⟨rfl, rfl, rfl, rfl⟩, fun _ _ _ => rfl⟩

theorem Out.trans {a b c : World} (ha : Inv M O a) (h1 : Out O a b) (h2 : Out O b c) : Out O a c where
  I := h2.I.trans h1.I
  term i hi := (h2.term i (hi.trans_le h1.nlv)).trans (h1.term i hi)
  nlv := h1.nlv.trans h2.nlv
  nhf := h1.nhf.trans h2.nhf
  nzl := h1.nzl.trans h2.nzl
  ntr := h1.ntr.trans h2.ntr
  lv i hi := (h2.lv i hi).trans (h1.lv i hi)
  hfp j hj := (h2.hfp j (hj.trans_le h1.nhf)).trans (h1.hfp j hj)
  hf j hj hO := (h2.hf j (hj.trans_le h1.nhf) (by rw [h1.hfp j hj]; exact hO)).trans (h1.hf j hj hO)
  zlp z hz := (h2.zlp z (hz.trans_le h1.nzl)).trans (h1.zlp z hz)
  zl z hz hO := (h2.zl z (hz.trans_le h1.nzl) (by rw [h1.zlp z hz, h1.hfp _ (ha.zPar z hz)]; exact hO)).trans (h1.zl z hz hO)
  tre t ht := by
    obtain ⟨a1, a2, a3, a4⟩ := h1.tre t ht
    obtain ⟨b1, b2, b3, b4⟩ := h2.tre t (ht.trans_le h1.ntr)
    exact ⟨b1.trans a1, b2.trans a2, b3.trans a3, b4.trans a4⟩
  tr t ht hO := (h2.tr t (ht.trans_le h1.ntr) (by rw [(h1.tre t ht).1]; exact hO)).trans (h1.tr t ht hO)

theorem Good.mono {P : Nat → Prop} {w w' : World} (hi : Inv M O w) (h : Out O w w') {r : Ref} (hg : Good P w r) : Good P w' r := by
  cases r with
  | fine i => exact hg
  | hyp j => exact ⟨hg.1.trans_le h.nhf, by rw [h.hfp j hg.1]; exact hg.2⟩
  | zee z => exact ⟨hg.1.trans_le h.nzl, by rw [h.zlp z hg.1, h.hfp _ (hi.zPar z hg.1)]; exact hg.2⟩

/-- A call started where `P` holds keeps the invariant, changes nothing of `O`, and its result satisfies `Q`. -/
def Tri (M O : Nat → Prop) {α : Type} (P : World → Prop) (m : PyM α) (Q : World → α → Prop) : Prop :=
  ∀ w, Inv M O w → P w → Inv M O (m w).1 ∧ Out O w (m w).1 ∧ ∀ a, (m w).2 = .ok a → Q (m w).1 a

/-- Conditions that are not lost by calls. -/
def Stable (M O : Nat → Prop) (P : World → Prop) : Prop := ∀ w w', Inv M O w → Out O w w' → P w → P w'

theorem Tri.bind {α β : Type} {P : World → Prop} {m : PyM α} {Q : World → α → Prop} {f : α → PyM β} {R : World → β → Prop}
    (hs : Stable M O P) (h1 : Tri M O P m Q) (h2 : ∀ a, Tri M O (fun w => P w ∧ Q w a) (f a) R) : Tri M O P (m >>= f) R := by
  intro w hw hP
  obtain ⟨i1, o1, q1⟩ := h1 w hw hP
  rw [PyM.bind_def]
  rcases hm : m w with ⟨w1, r⟩
  rw [hm] at i1 o1 q1
  cases r with
  | error e => exact ⟨i1, o1, fun a h => by cases h⟩
  | ok a =>
    obtain ⟨i2, o2, q2⟩ := h2 a w1 i1 ⟨hs w w1 hw o1 hP, q1 a rfl⟩
    exact ⟨i2, o1.trans hw o2, q2⟩

theorem Tri.post {α : Type} {P : World → Prop} {m : PyM α} {Q Q' : World → α → Prop} (h : Tri M O P m Q)
    (hq : ∀ w a, Inv M O w → Q w a → Q' w a) : Tri M O P m Q' :=
  fun w hw hP => ⟨(h w hw hP).1, (h w hw hP).2.1, fun a ha => hq _ a (h w hw hP).1 ((h w hw hP).2.2 a ha)⟩

theorem Tri.pre {α : Type} {P P' : World → Prop} {m : PyM α} {Q : World → α → Prop} (h : Tri M O P m Q)
    (hp : ∀ w, Inv M O w → P' w → P w) : Tri M O P' m Q := fun w hw hP => h w hw (hp w hw hP)

theorem Tri.still {α : Type} {P : World → Prop} {m : PyM α} {Q : World → α → Prop} (h : ∀ w, (m w).1 = w)
    (hq : ∀ w a, Inv M O w → P w → (m w).2 = .ok a → Q w a) : Tri M O P m Q := by
  intro w hw hP
  rw [h w]
  exact ⟨hw, .refl w, fun a ha => hq w a hw hP ha⟩

theorem Tri.get {P : World → Prop} : Tri M O P PyM.get (fun w a => w = a) :=
  Tri.still (fun _ => rfl) (fun w a _ _ h => by cases h; rfl)

theorem Tri.raise {α : Type} {P : World → Prop} {e : PyErr} {Q : World → α → Prop} : Tri M O P (PyM.raise e : PyM α) Q :=
  Tri.still (fun _ => rfl) (fun _ _ _ _ h => by cases h)

theorem Tri.pure {α : Type} {P : World → Prop} {a : α} {Q : World → α → Prop} (h : ∀ w, Inv M O w → P w → Q w a) :
    Tri M O P (Pure.pure a : PyM α) Q :=
  Tri.still (fun _ => rfl) (fun w b hw hP e => by cases e; exact h w hw hP)

theorem Tri.lift {α : Type} {P : World → Prop} {r : Py α} {Q : World → α → Prop} (h : ∀ w a, Inv M O w → P w → r = .ok a → Q w a) :
    Tri M O P (PyM.lift r) Q := Tri.still (fun _ => rfl) h

theorem Tri.ite {α : Type} {c : Prop} [Decidable c] {P : World → Prop} {m m' : PyM α} {Q : World → α → Prop} (h : c → Tri M O P m Q)
    (h' : ¬c → Tri M O P m' Q) : Tri M O P (if c then m else m') Q := by
  by_cases hc : c
  · rw [if_pos hc]; exact h hc
  · rw [if_neg hc]; exact h' hc

theorem stable_true : Stable M O (fun _ => True) := fun _ _ _ _ _ => trivial
theorem stable_const {p : Prop} : Stable M O (fun _ => p) := fun _ _ _ _ h => h
theorem stable_good {P : Nat → Prop} (r : Ref) : Stable M O (fun w => Good P w r) := fun _ _ hi ho h => Good.mono hi ho h

/-! ## Changes of single objects -/

/-- Changing a level that is not in `O`, other than its sublevels. -/
theorem setLv_ok {w : World} (hw : Inv M O w) {i : Nat} (hi : ¬O i) {e : ELevel} (he : e.subs = (w.lv i).subs) (ht : e.term = (w.lv i).term) :
    Inv M O (w.setLv i e) ∧ Out O w (w.setLv i e) := by
  have hs : ∀ i', ((w.setLv i e).lv i').subs = (w.lv i').subs := by
    intro i'
    by_cases hii : i' = i
    · subst hii; simp [World.setLv, upd_same, he]
    · simp [World.setLv, upd_ne _ _ _ hii]
  have hT : ∀ i', ((w.setLv i e).lv i').term = (w.lv i').term := by
    intro i'
    by_cases hii : i' = i
    · subst hii; simp [World.setLv, upd_same, ht]
    · simp [World.setLv, upd_ne _ _ _ hii]
  refine ⟨⟨hw.disj, hw.oLt, hw.mLt, hw.gok, hw.node, hw.edge, ?_, hw.trs, ?_, hw.zlOf, hw.zPar, ?_, ?_⟩, ⟨rfl, fun i' _ => hT i', le_refl _,
    le_refl _, le_refl _, le_refl _, ?_, fun _ _ => rfl, fun _ _ _ => rfl, fun _ _ => rfl, fun _ _ _ => rfl,
    fun _ _ => ⟨rfl, rfl, rfl, rfl⟩, fun _ _ _ => rfl⟩⟩
  · intro a r h
    have := hw.ali a r h
    cases r <;> exact this
  · intro i' k j h
    rw [hs] at h
    exact hw.hfOf i' k j h
  · intro i' h1 h2
    rw [hs]
    exact hw.fresh i' h1 h2
  · intro i' hm k j h
    rw [hs] at h
    rw [hT]
    exact hw.made i' hm k j h
  · intro i' hO
    have : i' ≠ i := fun h => hi (h ▸ hO)
    simp [World.setLv, upd_ne _ _ _ this]

theorem setE_ok {w : World} (hw : Inv M O w) {i : Nat} (hi : ¬O i) (v : ℚ) : Inv M O (w.setE i v) ∧ Out O w (w.setE i v) :=
  setLv_ok hw hi rfl rfl

theorem setFixed_ok {w : World} (hw : Inv M O w) {i : Nat} (hi : ¬O i) (b : Bool) : Inv M O (w.setFixed i b) ∧ Out O w (w.setFixed i b) :=
  setLv_ok hw hi rfl rfl

/-- Changing a transition that is not of the other atom, but not its levels. -/
theorem setTr_ok {w : World} (hw : Inv M O w) {t : Nat} (ht : t < w.ntr → ¬O (w.tr t).e1) {x : Trans} (hx : x.e1 = (w.tr t).e1 ∧ x.e2 = (w.tr t).e2 ∧
    x.lower = (w.tr t).lower ∧ x.upper = (w.tr t).upper) : Inv M O (w.setTr t x) ∧ Out O w (w.setTr t x) := by
  obtain ⟨x1, x2, x3, x4⟩ := hx
  have hend : ∀ (P : Nat → Prop) s, EndsIn P ((w.setTr t x).tr s) ↔ EndsIn P (w.tr s) := by
    intro P s
    by_cases hs : s = t
    · subst hs; simp [World.setTr, upd_same, EndsIn, x1, x2, x3, x4]
    · simp [World.setTr, upd_ne _ _ _ hs]
  refine ⟨⟨hw.disj, hw.oLt, hw.mLt, hw.gok, hw.node, ?_, ?_, ?_, hw.hfOf, hw.zlOf, hw.zPar, hw.fresh, hw.made⟩, ⟨rfl, fun _ _ => rfl, le_refl _, le_refl _, le_refl _, le_refl _, fun _ _ => rfl,
    fun _ _ => rfl, fun _ _ _ => rfl, fun _ _ => rfl, fun _ _ _ => rfl, ?_, ?_⟩⟩
  · intro n m s h
    exact ⟨(hw.edge n m s h).1, (hend _ _).2 (hw.edge n m s h).2⟩
  · intro a r h
    have := hw.ali a r h
    cases r <;> exact this
  · intro s hs
    rw [hend, hend]
    exact hw.trs s hs
  · intro s _
    by_cases hs : s = t
    · subst hs; simp [World.setTr, upd_same, x1, x2, x3, x4]
    · simp [World.setTr, upd_ne _ _ _ hs]
  · intro s hlt hO
    have : s ≠ t := fun h => ht (h ▸ hlt) (h ▸ hO)
    simp [World.setTr, upd_ne _ _ _ this]

/-- Changing only fields of the atom that are in no condition. -/
theorem site_ok {w w' : World} (hw : Inv M O w) (h : w' = { w with B := w'.B, talias := w'.talias, warned := w'.warned }) :
    Inv M O w' ∧ Out O w w' := by
  rw [h]
  refine ⟨⟨hw.disj, hw.oLt, hw.mLt, hw.gok, hw.node, hw.edge, ?_, hw.trs, hw.hfOf, hw.zlOf, hw.zPar, hw.fresh, hw.made⟩, ⟨rfl, fun _ _ => rfl, le_refl _, le_refl _, le_refl _, le_refl _,
    fun _ _ => rfl, fun _ _ => rfl, fun _ _ _ => rfl, fun _ _ => rfl, fun _ _ _ => rfl, fun _ _ => ⟨rfl, rfl, rfl, rfl⟩, fun _ _ _ => rfl⟩⟩
  intro a r h
  have := hw.ali a r h
  cases r <;> exact this

/-- Changing the graph. -/
theorem graph_ok {w : World} (hw : Inv M O w) {g : Graph} (hg : g.Ok) (hn : ∀ n i, g.lev n = some i → M i)
    (he : ∀ n m t, g.adj n m = some t → t < w.ntr ∧ EndsIn M (w.tr t)) : Inv M O { w with g := g } ∧ Out O w { w with g := g } := by
  refine ⟨⟨hw.disj, hw.oLt, hw.mLt, hg, hn, he, ?_, hw.trs, hw.hfOf, hw.zlOf, hw.zPar, hw.fresh, hw.made⟩, ⟨rfl, fun _ _ => rfl, le_refl _, le_refl _, le_refl _, le_refl _,
    fun _ _ => rfl, fun _ _ => rfl, fun _ _ _ => rfl, fun _ _ => rfl, fun _ _ _ => rfl, fun _ _ => ⟨rfl, rfl, rfl, rfl⟩, fun _ _ _ => rfl⟩⟩
  intro a r h
  have := hw.ali a r h
  cases r <;> exact this

/-- A new alias. -/
theorem lalias_ok {w : World} (hw : Inv M O w) {al : Str} {r : Ref} (hr : Good M w r) :
    Inv M O { w with lalias := w.lalias.set al r } ∧ Out O w { w with lalias := w.lalias.set al r } := by
  refine ⟨⟨hw.disj, hw.oLt, hw.mLt, hw.gok, hw.node, hw.edge, ?_, hw.trs, hw.hfOf, hw.zlOf, hw.zPar, hw.fresh, hw.made⟩, ⟨rfl, fun _ _ => rfl, le_refl _, le_refl _, le_refl _, le_refl _,
    fun _ _ => rfl, fun _ _ => rfl, fun _ _ _ => rfl, fun _ _ => rfl, fun _ _ _ => rfl, fun _ _ => ⟨rfl, rfl, rfl, rfl⟩, fun _ _ _ => rfl⟩⟩
  intro a r' h
  have h' : (w.lalias.set al r).get? a = some r' := h
  rw [Dict.get?_set] at h'
  have : Good M w r' := by
    split at h'
    · cases h'; exact hr
    · exact hw.ali a r' h'
  cases r' <;> exact this

theorem Out.comp {a b c : World} (h1 : Inv M O a) (h2 : Inv M O b ∧ Out O a b) (h3 : Inv M O b → Inv M O c ∧ Out O b c) :
    Inv M O c ∧ Out O a c := ⟨(h3 h2.1).1, h2.2.trans h1 (h3 h2.1).2⟩

/-! ## Sublevels -/

/-- `f` is one of the hyperfine levels of the level `i`. -/
def FOf (i : Nat) (f : ℚ) (w : World) : Prop := ∃ J, (w.lv i).term.J = some J ∧ f ∈ hfFs w.I J

theorem popHF1_tri (i : Nat) (hi : M i) (f : ℚ) : Tri M O (FOf i f) (popHF1 i f) (fun _ _ => True) := by
  rintro w hw ⟨J₀, hJ₀, hf⟩
  have hi' := hi
  replace hi : ¬O i := hw.disj i hi
  refine (fun (h : Inv M O (popHF1 i f w).1 ∧ Out O w (popHF1 i f w).1) => ⟨h.1, h.2, fun _ _ => trivial⟩) ?_
  unfold popHF1
  split
  · exact ⟨hw, .refl w⟩
  · rename_i t htc
    split
    · split
      · exact ⟨hw, .refl w⟩
      · rename_i g _
        have hh : ∀ j, j < w.nhf → upd w.hf w.nhf ⟨t, i, g, []⟩ j = w.hf j := fun j hj => upd_ne _ _ _ (by omega)
        have hT : ∀ i', (upd w.lv i { w.lv i with subs := (w.lv i).subs.set (fKey f) w.nhf } i').term = (w.lv i').term := by
          intro i'
          by_cases h : i' = i
          · subst h; rw [upd_same]
          · rw [upd_ne _ _ _ h]
        refine ⟨⟨hw.disj, hw.oLt, hw.mLt, hw.gok, hw.node, hw.edge, ?_, hw.trs, ?_, ?_, ?_, ?_, ?_⟩, ⟨rfl, fun i' _ => hT i', le_refl _,
          Nat.le_succ _, le_refl _, le_refl _, ?_, ?_, ?_, fun _ _ => rfl, fun _ _ _ => rfl, fun _ _ => ⟨rfl, rfl, rfl, rfl⟩, fun _ _ _ => rfl⟩⟩
        · intro a r h
          have := hw.ali a r h
          cases r with
          | fine i => exact this
          | hyp j => exact ⟨this.1.trans (Nat.lt_succ_self _), by show M (upd w.hf w.nhf ⟨t, i, g, []⟩ j).parent; rw [hh j this.1]; exact this.2⟩
          | zee z =>
            refine ⟨this.1, ?_⟩
            show M (upd w.hf w.nhf ⟨t, i, g, []⟩ (w.zl z).parent).parent
            rw [hh _ (hw.zPar z this.1)]; exact this.2
        · intro i' k j h
          show j < w.nhf + 1 ∧ (upd w.hf w.nhf ⟨t, i, g, []⟩ j).parent = i'
          have h' : (upd w.lv i { w.lv i with subs := (w.lv i).subs.set (fKey f) w.nhf } i').subs.get? k = some j := h
          by_cases hii : i' = i
          · subst hii
            rw [upd_same] at h'
            simp only [Dict.get?_set] at h'
            split at h'
            · cases h'
              exact ⟨Nat.lt_succ_self _, by rw [upd_same]⟩
            · obtain ⟨h1, h2⟩ := hw.hfOf _ k j h'
              exact ⟨h1.trans (Nat.lt_succ_self _), by rw [hh j h1]; exact h2⟩
          · rw [upd_ne _ _ _ hii] at h'
            obtain ⟨h1, h2⟩ := hw.hfOf _ k j h'
            exact ⟨h1.trans (Nat.lt_succ_self _), by rw [hh j h1]; exact h2⟩
        · intro j k z h
          have h' : (upd w.hf w.nhf ⟨t, i, g, []⟩ j).subs.get? k = some z := h
          by_cases hj : j = w.nhf
          · subst hj; rw [upd_same] at h'; cases h'
          · rw [upd_ne _ _ _ hj] at h'; exact hw.zlOf j k z h'
        · intro z hz
          exact (hw.zPar z hz).trans (Nat.lt_succ_self _)
        · intro i' h1 h2
          have : i' ≠ i := fun h => h1 (h ▸ hi')
          show (upd w.lv i _ i').subs = []
          rw [upd_ne _ _ _ this]
          exact hw.fresh i' h1 h2
        · intro i' hm k j h
          show ∃ J F, (upd w.lv i _ i').term.J = some J ∧ k = fKey F ∧ F ∈ hfFs w.I J ∧
            ((upd w.lv i _ i').term.F = none → (upd w.hf w.nhf ⟨t, i, g, []⟩ j).term.F = some F)
          rw [hT]
          have h' : (upd w.lv i { w.lv i with subs := (w.lv i).subs.set (fKey f) w.nhf } i').subs.get? k = some j := h
          have old : (w.lv i').subs.get? k = some j → ∃ J F, (w.lv i').term.J = some J ∧ k = fKey F ∧ F ∈ hfFs w.I J ∧
              ((w.lv i').term.F = none → (upd w.hf w.nhf ⟨t, i, g, []⟩ j).term.F = some F) := by
            intro h
            rw [hh j (hw.hfOf i' k j h).1]
            exact hw.made i' hm k j h
          by_cases hii : i' = i
          · subst hii
            rw [upd_same] at h'
            simp only [Dict.get?_set] at h'
            split at h'
            · rename_i hk
              cases h'
              refine ⟨J₀, f, hJ₀, hk.symm, hf, fun hF => ?_⟩
              rw [upd_same]
              rw [makeCopy_num] at htc
              cases htc
              simp [Term.withF, hF]
            · exact old h'
          · rw [upd_ne _ _ _ hii] at h'
            exact old h'
        · intro i' hO
          show upd w.lv i _ i' = w.lv i'
          exact upd_ne _ _ _ (fun h => hi (h ▸ hO))
        · intro j hj
          show (upd w.hf w.nhf _ j).parent = _
          rw [hh j hj]
        · intro j hj _
          exact hh j hj
    · exact ⟨hw, .refl w⟩

theorem stable_FOf {i : Nat} {fs : List ℚ} (hi : M i) : Stable M O (fun w => ∀ f ∈ fs, FOf i f w) := by
  intro w w' hw ho h f hf
  obtain ⟨J, h1, h2⟩ := h f hf
  exact ⟨J, by rw [ho.term i (hw.mLt i hi)]; exact h1, by rw [ho.I]; exact h2⟩

theorem popHFs_tri (i : Nat) (hi : M i) (fs : List ℚ) : Tri M O (fun w => ∀ f ∈ fs, FOf i f w) (popHFs i fs) (fun _ _ => True) := by
  induction fs with
  | nil => exact Tri.pure (fun _ _ _ => trivial)
  | cons f fs ih =>
    unfold popHFs
    exact Tri.bind (stable_FOf hi) ((popHF1_tri i hi f).pre (fun _ _ h => h f (by simp))) (fun _ => ih.pre (fun _ _ h f hf => h.1 f (by simp [hf])))

theorem populateHF_tri (i : Nat) (hi : M i) : Tri M O (fun _ => True) (populateHF i) (fun _ _ => True) := by
  intro w hw _
  unfold populateHF
  split
  · split
    · rename_i J hJ
      exact popHFs_tri i hi _ w hw (fun f hf => ⟨J, hJ, hf⟩)
    · exact ⟨hw, .refl w, fun _ _ => trivial⟩
  · exact ⟨hw, .refl w, fun _ _ => trivial⟩

theorem lazyHF_tri (i : Nat) (hi : M i) : Tri M O (fun _ => True) (lazyHF i) (fun _ _ => True) := by
  intro w hw _
  unfold lazyHF
  split
  · split
    · exact populateHF_tri i hi w hw trivial
    · exact ⟨hw, .refl w, fun _ _ => trivial⟩
  · exact ⟨hw, .refl w, fun _ _ => trivial⟩

theorem popZ1_tri (j : Nat) (m : ℚ) : Tri M O (fun w => j < w.nhf ∧ ¬O (w.hf j).parent) (popZ1 j m) (fun _ _ => True) := by
  intro w hw ⟨hj, hO⟩
  refine (fun (h : Inv M O (popZ1 j m w).1 ∧ Out O w (popZ1 j m w).1) => ⟨h.1, h.2, fun _ _ => trivial⟩) ?_
  unfold popZ1
  split
  · exact ⟨hw, .refl w⟩
  · rename_i t _
    split
    · split
      · exact ⟨hw, .refl w⟩
      · rename_i g _
        have hz : ∀ z, z < w.nzl → upd w.zl w.nzl ⟨t, j, g, 0⟩ z = w.zl z := fun z hz => upd_ne _ _ _ (by omega)
        have hp : ∀ j', (upd w.hf j { w.hf j with subs := (w.hf j).subs.set (mKey m) w.nzl } j').parent = (w.hf j').parent := by
          intro j'
          by_cases h : j' = j
          · subst h; rw [upd_same]
          · rw [upd_ne _ _ _ h]
        have hT : ∀ j', (upd w.hf j { w.hf j with subs := (w.hf j).subs.set (mKey m) w.nzl } j').term = (w.hf j').term := by
          intro j'
          by_cases h : j' = j
          · subst h; rw [upd_same]
          · rw [upd_ne _ _ _ h]
        refine ⟨⟨hw.disj, hw.oLt, hw.mLt, hw.gok, hw.node, hw.edge, ?_, hw.trs, ?_, ?_, ?_, hw.fresh, ?_⟩, ⟨rfl, fun _ _ => rfl, le_refl _, le_refl _,
          Nat.le_succ _, le_refl _, fun _ _ => rfl, fun j' _ => hp j', ?_, ?_, ?_, fun _ _ => ⟨rfl, rfl, rfl, rfl⟩, fun _ _ _ => rfl⟩⟩
        · intro a r h
          have := hw.ali a r h
          cases r with
          | fine i => exact this
          | hyp j' => exact ⟨this.1, by show M (upd w.hf j _ j').parent; rw [hp]; exact this.2⟩
          | zee z =>
            refine ⟨this.1.trans (Nat.lt_succ_self _), ?_⟩
            show M (upd w.hf j _ (upd w.zl w.nzl ⟨t, j, g, 0⟩ z).parent).parent
            rw [hp, hz z this.1]; exact this.2
        · intro i k j' h
          obtain ⟨h1, h2⟩ := hw.hfOf i k j' h
          exact ⟨h1, (hp j').trans h2⟩
        · intro j' k z h
          show z < w.nzl + 1 ∧ (upd w.zl w.nzl ⟨t, j, g, 0⟩ z).parent = j'
          have h' : (upd w.hf j { w.hf j with subs := (w.hf j).subs.set (mKey m) w.nzl } j').subs.get? k = some z := h
          by_cases hjj : j' = j
          · subst hjj
            rw [upd_same] at h'
            simp only [Dict.get?_set] at h'
            split at h'
            · cases h'
              exact ⟨Nat.lt_succ_self _, by rw [upd_same]⟩
            · obtain ⟨h1, h2⟩ := hw.zlOf _ k z h'
              exact ⟨h1.trans (Nat.lt_succ_self _), by rw [hz z h1]; exact h2⟩
          · rw [upd_ne _ _ _ hjj] at h'
            obtain ⟨h1, h2⟩ := hw.zlOf _ k z h'
            exact ⟨h1.trans (Nat.lt_succ_self _), by rw [hz z h1]; exact h2⟩
        · intro z hlt
          show (upd w.zl w.nzl ⟨t, j, g, 0⟩ z).parent < w.nhf
          by_cases hzz : z = w.nzl
          · subst hzz; rw [upd_same]; exact hj
          · have : z < w.nzl := lt_of_le_of_ne (Nat.lt_succ_iff.1 hlt) hzz
            rw [hz z this]; exact hw.zPar z this
        · intro i hm k j' h
          show ∃ J F, (w.lv i).term.J = some J ∧ k = fKey F ∧ F ∈ hfFs w.I J ∧
            ((w.lv i).term.F = none → (upd w.hf j { w.hf j with subs := (w.hf j).subs.set (mKey m) w.nzl } j').term.F = some F)
          rw [hT]
          exact hw.made i hm k j' h
        · intro j' _ hO'
          show upd w.hf j _ j' = w.hf j'
          exact upd_ne _ _ _ (fun h => hO (h ▸ hO'))
        · intro z hlt
          show (upd w.zl w.nzl _ z).parent = _
          rw [hz z hlt]
        · intro z hlt _
          exact hz z hlt
    · exact ⟨hw, .refl w⟩

theorem stable_hyp (j : Nat) {P : Nat → Prop} : Stable M O (fun w => j < w.nhf ∧ P (w.hf j).parent) :=
  fun _ _ _ ho h => ⟨h.1.trans_le ho.nhf, by rw [ho.hfp j h.1]; exact h.2⟩

theorem popZs_tri (j : Nat) (ms : List ℚ) : Tri M O (fun w => j < w.nhf ∧ ¬O (w.hf j).parent) (popZs j ms) (fun _ _ => True) := by
  induction ms with
  | nil => exact Tri.pure (fun _ _ _ => trivial)
  | cons m ms ih =>
    unfold popZs
    exact Tri.bind (stable_hyp j (P := fun i => ¬O i)) (popZ1_tri j m) (fun _ => ih.pre (fun _ _ h => h.1))

theorem lazyZ_tri (j : Nat) : Tri M O (fun w => j < w.nhf ∧ ¬O (w.hf j).parent) (lazyZ j) (fun _ _ => True) := by
  intro w hw h
  unfold lazyZ
  split
  · split
    · exact popZs_tri j _ w hw h
    · exact ⟨hw, .refl w, fun _ _ => trivial⟩
  · exact ⟨hw, .refl w, fun _ _ => trivial⟩

/-! ## Lookups -/

theorem hfItem_tri (j : Nat) (key : Str) :
    Tri M O (fun w => Good M w (.hyp j)) (hfItem j key) (fun w z => Good M w (.zee z)) := by
  unfold hfItem
  refine Tri.bind (Q := fun _ _ => True) (stable_good _) ((lazyZ_tri j).pre (fun w hw h => ⟨h.1, hw.disj _ h.2⟩)) (fun _ => ?_)
  refine Tri.bind (Q := fun w a => w = a) (fun w w' hi ho h => ⟨(stable_good (.hyp j)) w w' hi ho h.1, h.2⟩) Tri.get (fun v => ?_)
  refine Tri.ite (fun _ => Tri.raise) (fun _ => Tri.lift ?_)
  rintro w z hw ⟨⟨hg, -⟩, rfl⟩ h
  obtain ⟨h1, h2⟩ := hw.zlOf j key z (Dict.getE_ok.1 h)
  exact ⟨h1, by rw [h2]; exact hg.2⟩

theorem lvItem_tri (i : Nat) (hi : M i) (key : Str) : Tri M O (fun _ => True) (lvItem i key) (fun w r => Good M w r) := by
  unfold lvItem
  refine Tri.bind (Q := fun _ _ => True) stable_true (lazyHF_tri i hi) (fun _ => ?_)
  refine Tri.bind (Q := fun w a => w = a) stable_const Tri.get (fun v => ?_)
  have hsub : ∀ (w : World) (k : Str) (j : Nat), Inv M O w → (w.lv i).subs.getE k = .ok j → Good M w (.hyp j) := by
    intro w k j hw h
    obtain ⟨h1, h2⟩ := hw.hfOf i k j (Dict.getE_ok.1 h)
    exact ⟨h1, by rw [h2]; exact hi⟩
  refine Tri.ite (fun _ => ?_) (fun _ => ?_)
  · have hl : Tri M O (fun w => (True ∧ True) ∧ w = v) (PyM.lift ((v.lv i).subs.getE (Term.fEq ++ jFrac (v.lv i).term))) (fun w j => Good M w (.hyp j)) :=
      Tri.lift (by rintro w j hw ⟨-, rfl⟩ h; exact hsub _ _ j hw h)
    intro w hw hP
    obtain ⟨i1, o1, q1⟩ := hl w hw hP
    rw [PyM.bind_def]
    rcases hm : PyM.lift ((v.lv i).subs.getE (Term.fEq ++ jFrac (v.lv i).term)) w with ⟨w1, r⟩
    rw [hm] at i1 o1 q1
    cases r with
    | error e => exact ⟨i1, o1, fun a h => by cases h⟩
    | ok j =>
      have := Tri.bind (stable_good (.hyp j)) (hfItem_tri (M := M) (O := O) j (pyReplace mJtxt mFtxt key))
        (f := fun k => (Pure.pure (Ref.zee k) : PyM Ref)) (R := fun w r => Good M w r) (fun z => Tri.pure (fun _ _ h => h.2)) w1 i1 (q1 j rfl)
      exact ⟨this.1, o1.trans hw this.2.1, this.2.2⟩
  · intro w hw hP
    obtain ⟨-, rfl⟩ := hP
    rw [PyM.bind_def]
    cases hE : (w.lv i).subs.getE key with
    | error e => exact ⟨hw, .refl w, fun a h => by cases h⟩
    | ok j => exact ⟨hw, .refl w, fun a h => by cases h; exact hsub w key j hw hE⟩

theorem refItem_tri (r : Ref) (key : Str) : Tri M O (fun w => Good M w r) (refItem r key) (fun w r => Good M w r) := by
  cases r with
  | fine i =>
    intro w hw h
    exact lvItem_tri i h key w hw trivial
  | hyp j => exact Tri.bind (stable_good _) (hfItem_tri j key) (fun z => Tri.pure (fun _ _ h => h.2))
  | zee z => exact Tri.raise

theorem attrs_mem {w : World} (hw : Inv M O w) {n : Str} {i : Nat} (h : w.g.levelAttrs.getE n = .ok i) : M i := by
  have := Dict.getE_ok.1 h
  rw [Graph.get?_levelAttrs _ hw.gok.nodup] at this
  exact hw.node n i this

theorem levelsGet_tri (key : Str) : Tri M O (fun _ => True) (levelsGet key) (fun w r => Good M w r) := by
  have hl : ∀ v : World, ∀ main : Str, Tri M O (fun w => True ∧ w = v) (PyM.lift (v.g.levelAttrs.getE main)) (fun w i => M i ∧ w = v) :=
    fun v main => Tri.lift (by rintro w i hw ⟨-, rfl⟩ h; exact ⟨attrs_mem hw h, rfl⟩)
  have step : ∀ (v : World) (main : Str) (f : Nat → PyM Ref), (∀ i, M i → Tri M O (fun _ => True) (f i) (fun w r => Good M w r)) →
      Tri M O (fun w => True ∧ w = v) (do let i ← PyM.lift (v.g.levelAttrs.getE main); f i) (fun w r => Good M w r) := by
    intro v main f hf w hw hP
    obtain ⟨-, -, q1⟩ := hl v main w hw hP
    rw [PyM.bind_def]
    obtain ⟨-, rfl⟩ := hP
    cases hE : w.g.levelAttrs.getE main with
    | error e => exact ⟨hw, .refl w, fun a h => by cases h⟩
    | ok i =>
      have hi : M i := attrs_mem hw hE
      exact hf i hi w hw trivial
  unfold levelsGet
  refine Tri.bind (Q := fun w a => w = a) stable_true Tri.get (fun v => ?_)
  have two : ∀ i, M i → ∀ h z, Tri M O (fun _ => True) (do let r ← lvItem i h; refItem r z) (fun w r => Good M w r) :=
    fun i hi h z => Tri.bind stable_true (lvItem_tri i hi h) (fun r => (refItem_tri r z).pre (fun _ _ h => h.2))
  split
  · rename_i r hr
    exact Tri.pure (by rintro w hw ⟨-, rfl⟩; exact hw.ali _ _ hr)
  · refine Tri.ite (fun _ => ?_) (fun _ => Tri.ite (fun _ => ?_) (fun _ => Tri.ite (fun _ => ?_) (fun _ => ?_)))
    · split
      · exact step v _ _ (fun i hi => two i hi _ _)
      · exact Tri.raise
    · split
      · exact step v _ _ (fun i hi => two i hi _ _)
      · exact Tri.raise
    · split
      · exact step v _ _ (fun i hi => lvItem_tri i hi _)
      · exact Tri.raise
    · exact step v _ _ (fun i hi => Tri.pure (fun _ _ _ => hi))

/-! ## Consistency -/

theorem enfEdge_tri (u v : Str) : Tri M O (fun _ => True) (enfEdge u v) (fun _ _ => True) := by
  intro w hw _
  refine (fun (h : Inv M O (enfEdge u v w).1 ∧ Out O w (enfEdge u v w).1) => ⟨h.1, h.2, fun _ _ => trivial⟩) ?_
  unfold enfEdge
  split
  · exact ⟨hw, .refl w⟩
  · rename_i t ht
    obtain ⟨-, -, -, hl, hu⟩ := hw.edge u v t ht
    have hl := hw.disj _ hl
    have hu := hw.disj _ hu
    split
    · exact ⟨hw, .refl w⟩
    · refine Out.comp hw ?_ (fun h => Out.comp h (setFixed_ok h hu true) (fun h => setFixed_ok h hl true))
      split
      · exact site_ok hw rfl
      · split
        · exact setE_ok hw hl _
        · exact setE_ok hw hu _

theorem enfEdges_tri (l : List (Str × Str)) : Tri M O (fun _ => True) (enfEdges l) (fun _ _ => True) := by
  induction l with
  | nil => exact Tri.pure (fun _ _ _ => trivial)
  | cons e l ih =>
    obtain ⟨u, v⟩ := e
    unfold enfEdges
    exact Tri.bind stable_true (enfEdge_tri u v) (fun _ => ih.pre (fun _ _ _ => trivial))

theorem enfComp_tri (σ : Ord') (es : List (Str × Str)) (c : List Str) : Tri M O (fun _ => True) (enfComp σ es c) (fun _ _ => True) := by
  intro w hw _
  unfold enfComp
  split
  · exact ⟨hw, .refl w, fun _ _ => trivial⟩
  · exact ⟨hw, .refl w, fun _ _ => trivial⟩
  · exact enfEdges_tri _ w hw trivial

theorem enfComps_tri (σ : Ord') (es : List (Str × Str)) (trig : Option (Str × Str)) (cs : List (List Str)) :
    Tri M O (fun _ => True) (enfComps σ es trig cs) (fun _ _ => True) := by
  induction cs with
  | nil => exact Tri.pure (fun _ _ _ => trivial)
  | cons c cs ih =>
    intro w hw h
    unfold enfComps
    split
    · exact Tri.bind stable_true (enfComp_tri σ es c) (fun _ => ih.pre (fun _ _ _ => trivial)) w hw h
    · exact ih w hw h

theorem enforce_tri (σ : Ord') (trig : Option (Str × Str)) : Tri M O (fun _ => True) (enforce σ trig) (fun _ _ => True) := by
  intro w hw h
  unfold enforce
  split
  · exact ⟨hw, .refl w, fun _ _ => trivial⟩
  · exact enfComps_tri σ _ trig _ w hw h

/-! ## The calls -/

/-- The state after a call: the invariant, and nothing of `O` has changed. -/
def Ok (M O : Nat → Prop) (w w' : World) : Prop := Inv M O w' ∧ Out O w w'

theorem Tri.okOf {α : Type} {P : World → Prop} {m : PyM α} {Q : World → α → Prop} (h : Tri M O P m Q) {w : World} (hw : Inv M O w) (hP : P w) :
    Ok M O w (m w).1 := ⟨(h w hw hP).1, (h w hw hP).2.1⟩

theorem setHLevel_ok {w : World} (hw : Inv M O w) {j : Nat} (hj : Good M w (.hyp j)) (v : ℚ) : Ok M O w (setHLevel j v w).1 := by
  unfold setHLevel
  split
  · exact setE_ok hw (hw.disj _ hj.2) _
  · exact ⟨hw, .refl w⟩

theorem setZLevel_ok {w : World} (hw : Inv M O w) {z : Nat} (hz : Good M w (.zee z)) (v : ℚ) : Ok M O w (setZLevel z v w).1 := by
  unfold setZLevel
  split
  · exact setHLevel_ok hw ⟨hw.zPar z hz.1, hz.2⟩ _
  · exact ⟨hw, .refl w⟩
  · exact ⟨hw, .refl w⟩

theorem setAlias_ok {w : World} (hw : Inv M O w) {r : Ref} (hr : Good M w r) (al : Str) : Ok M O w (setAlias r al w).1 := by
  unfold setAlias
  split
  · rename_i i
    have h1 := setLv_ok hw (hw.disj i hr) (e := { w.lv i with ali := some al }) rfl rfl
    simp only
    split
    · exact Out.comp hw h1 (fun h => lalias_ok h hr)
    · exact h1
  · exact lalias_ok hw hr

theorem addLevel_ok {w : World} (hw : Inv M O w) {i : Nat} (hi : M i) (p : Bool) (ali : Option Str) : Ok M O w (addLevel i p ali w).1 := by
  have hd := hw.disj i hi
  have t1 : Tri M O (fun _ => True) (lvAddToAtom i) (fun _ _ => True) := by
    intro w hw _
    have h1 := setLv_ok hw hd (e := { w.lv i with inAtom := true }) rfl rfl
    have h2 := graph_ok h1.1 (g := w.g.addNode (w.lname i) i) (hw.gok.addNode _ _) (by
      intro n i' h
      rw [Graph.lev_addNode] at h
      split at h
      · cases h; exact hi
      · exact hw.node n i' h) (by
      intro n m t h
      rw [Graph.adj_addNode] at h
      exact hw.edge n m t h)
    exact ⟨h2.1, h1.2.trans hw h2.2, fun _ _ => trivial⟩
  have t2 : Tri M O (fun _ => True) (setAliasOpt i ali) (fun _ _ => True) := by
    cases ali with
    | none => exact Tri.pure (fun _ _ _ => trivial)
    | some al => exact fun w hw _ => ⟨(setAlias_ok hw (r := .fine i) hi al).1, (setAlias_ok hw (r := .fine i) hi al).2, fun _ _ => trivial⟩
  have t3 : Tri M O (fun _ => True) (regAlias i) (fun _ _ => True) := by
    intro w hw _
    unfold regAlias
    split
    · exact ⟨(lalias_ok hw (r := .fine i) hi).1, (lalias_ok hw (r := .fine i) hi).2, fun _ _ => trivial⟩
    · exact ⟨hw, .refl w, fun _ _ => trivial⟩
  have t4 : Tri M O (fun _ => True) (if p then populateHF i else pure ()) (fun _ _ => True) :=
    Tri.ite (fun _ => populateHF_tri i hi) (fun _ => Tri.pure (fun _ _ _ => trivial))
  refine Tri.okOf (P := fun _ => True) (Q := fun _ _ => True) ?_ hw trivial
  unfold addLevel
  exact Tri.bind stable_true t1 (fun _ => Tri.bind stable_const (t2.pre (fun _ _ _ => trivial)) (fun _ =>
    Tri.bind stable_const (t3.pre (fun _ _ _ => trivial)) (fun _ => t4.pre (fun _ _ _ => trivial))))

theorem levelsDel_ok {w : World} (hw : Inv M O w) (key : Str) : Ok M O w (levelsDel key w).1 := by
  unfold levelsDel
  cases hE : w.g.removeNode key with
  | error e => exact ⟨hw, .refl w⟩
  | ok g =>
    refine graph_ok hw (hw.gok.removeNode hE) (fun n i h => ?_) (fun n m t h => ?_)
    · rw [Graph.lev_removeNode hE] at h
      split at h
      · cases h
      · exact hw.node n i h
    · rw [Graph.adj_removeNode hE] at h
      split at h
      · cases h
      · exact hw.edge n m t h

theorem trAddToAtom_ok {w : World} (hw : Inv M O w) {t : Nat} (ht : t < w.ntr) (he : EndsIn M (w.tr t)) : Ok M O w (trAddToAtom t w).1 := by
  have : (trAddToAtom t w).1 = { w with g := w.g.addEdge (w.lname (w.tr t).lower) (w.lname (w.tr t).upper) t } := by
    unfold trAddToAtom
    simp only
    split <;> rfl
  rw [this]
  refine graph_ok hw (hw.gok.addEdge _ _ _) (fun n i h => ?_) (fun n m s h => ?_)
  · rw [Graph.lev_addEdge] at h
    exact hw.node n i h
  · rw [Graph.adj_addEdge] at h
    split at h
    · cases h; exact ⟨ht, he⟩
    · exact hw.edge n m s h

theorem addTransition_ok {w : World} (hw : Inv M O w) (σ : Ord') {t : Nat} (ht : t < w.ntr) (he : EndsIn M (w.tr t)) :
    Ok M O w (addTransition σ t w).1 := by
  have st : Stable M O (fun w => t < w.ntr ∧ EndsIn M (w.tr t)) := by
    intro w w' _ ho h
    obtain ⟨a, b, c, d⟩ := ho.tre t h.1
    refine ⟨h.1.trans_le ho.ntr, ?_⟩
    unfold EndsIn
    rw [a, b, c, d]
    exact h.2
  have t1 : Tri M O (fun w => t < w.ntr ∧ EndsIn M (w.tr t)) (trAddToAtom t) (fun _ _ => True) :=
    fun w hw h => ⟨(trAddToAtom_ok hw h.1 h.2).1, (trAddToAtom_ok hw h.1 h.2).2, fun _ _ => trivial⟩
  have t2 : Tri M O (fun w => (t < w.ntr ∧ EndsIn M (w.tr t)) ∧ True) (regTAlias t) (fun _ _ => True) := by
    intro w hw _
    unfold regTAlias
    split
    · rename_i al _
      have := site_ok (M := M) (O := O) (w := w) (w' := { w with talias := w.talias.set al t }) hw rfl
      exact ⟨this.1, this.2, fun _ _ => trivial⟩
    · exact ⟨hw, .refl w, fun _ _ => trivial⟩
  refine Tri.okOf (P := fun w => t < w.ntr ∧ EndsIn M (w.tr t)) (Q := fun _ _ => True) ?_ hw ⟨ht, he⟩
  unfold addTransition
  refine Tri.bind st t1 (fun _ => Tri.bind (fun w w' hi ho h => ⟨st w w' hi ho h.1, trivial⟩) t2 (fun _ w hw _ => ?_))
  unfold enforceIfSet
  split
  · split
    · exact enforce_tri σ none w hw trivial
    · exact ⟨hw, .refl w, fun _ _ => trivial⟩
  · exact ⟨hw, .refl w, fun _ _ => trivial⟩

theorem setFrequency_ok {w : World} (hw : Inv M O w) (σ : Ord') {t : Nat} (he : EndsIn M (w.tr t)) (f : ℚ) :
    Ok M O w (setFrequency σ t f w).1 := by
  unfold setFrequency
  split
  · simp only
    generalize hw1 : (if truthy (w.tr t).setFreq = true ∧ (w.lv (w.tr t).upper).fixed = true ∧ (w.lv (w.tr t).lower).fixed = true
      then w.setFixed (w.tr t).upper false else w) = w1
    have h1 : Inv M O w1 ∧ Out O w w1 := by
      rw [← hw1]
      split
      · exact setFixed_ok hw (hw.disj _ he.2.2.2) _
      · exact ⟨hw, .refl w⟩
    have htr : w1.tr = w.tr := by
      rw [← hw1]
      split <;> rfl
    have h2 := setTr_ok h1.1 (t := t) (x := { w1.tr t with setFreq := some f }) (fun _ => by rw [htr]; exact hw.disj _ he.1) ⟨rfl, rfl, rfl, rfl⟩
    have h3 : Inv M O _ ∧ Out O w _ := ⟨h2.1, h1.2.trans hw h2.2⟩
    split
    · exact ⟨(enforce_tri σ _ _ h3.1 trivial).1, h3.2.trans hw (enforce_tri σ _ _ h3.1 trivial).2.1⟩
    · exact h3
  · exact ⟨hw, .refl w⟩

theorem newTransObj_tri (a b : Nat) (ha : M a) (hb : M b) (ali : Option Str) :
    Tri M O (fun _ => True) (newTransObj a b ali) (fun w t => t < w.ntr ∧ EndsIn M (w.tr t)) := by
  intro w hw _
  have hnew : ∀ x : Trans, EndsIn M x → Inv M O { w with ntr := w.ntr + 1, tr := upd w.tr w.ntr x } ∧
      Out O w { w with ntr := w.ntr + 1, tr := upd w.tr w.ntr x } := by
    intro x hx
    have hh : ∀ t, t < w.ntr → upd w.tr w.ntr x t = w.tr t := fun t ht => upd_ne _ _ _ (by omega)
    refine ⟨⟨hw.disj, hw.oLt, hw.mLt, hw.gok, hw.node, ?_, ?_, ?_, hw.hfOf, hw.zlOf, hw.zPar, hw.fresh, hw.made⟩, ⟨rfl, fun _ _ => rfl, le_refl _, le_refl _, le_refl _, Nat.le_succ _,
      fun _ _ => rfl, fun _ _ => rfl, fun _ _ _ => rfl, fun _ _ => rfl, fun _ _ _ => rfl, ?_, ?_⟩⟩
    · intro n m t h
      obtain ⟨h1, h2⟩ := hw.edge n m t h
      exact ⟨h1.trans (Nat.lt_succ_self _), by show EndsIn M (upd w.tr w.ntr x t); rw [hh t h1]; exact h2⟩
    · intro a r h
      have := hw.ali a r h
      cases r <;> exact this
    · intro t ht
      show EndsIn M (upd w.tr w.ntr x t) ∨ EndsIn O (upd w.tr w.ntr x t)
      by_cases htt : t = w.ntr
      · subst htt; rw [upd_same]; exact .inl hx
      · have : t < w.ntr := lt_of_le_of_ne (Nat.lt_succ_iff.1 ht) htt
        rw [hh t this]; exact hw.trs t this
    · intro t ht
      show (upd w.tr w.ntr x t).e1 = _ ∧ (upd w.tr w.ntr x t).e2 = _ ∧ (upd w.tr w.ntr x t).lower = _ ∧ (upd w.tr w.ntr x t).upper = _
      rw [hh t ht]
      exact ⟨rfl, rfl, rfl, rfl⟩
    · intro t ht _
      exact hh t ht
  have hup : ∀ c : Prop, [Decidable c] → M (if c then b else a) ∧ M (if c then a else b) := by
    intro c _
    by_cases hc : c
    · simp [hc, ha, hb]
    · simp [hc, ha, hb]
  unfold newTransObj
  simp only
  generalize hdef : (⟨a, b, if w.eHz b > w.eHz a then a else b, if w.eHz b > w.eHz a then b else a, false, none, (false, false, false), none,
    ali, []⟩ : Trans) = x
  have hx : EndsIn M x := by rw [← hdef]; exact ⟨ha, hb, (hup _).2, (hup _).1⟩
  obtain ⟨n1, n2⟩ := hnew x hx
  generalize hv : ({ w with ntr := w.ntr + 1, tr := upd w.tr w.ntr x } : World) = v at n1 n2 ⊢
  have v1 : v.tr = upd w.tr w.ntr x := by rw [← hv]
  have v2 : v.ntr = w.ntr + 1 := by rw [← hv]
  have v3 : w.ntr < v.ntr ∧ EndsIn M (v.tr w.ntr) := ⟨by omega, by rw [v1, upd_same]; exact hx⟩
  split
  · have h3 := trAddToAtom_ok n1 v3.1 v3.2
    have h4 : (trAddToAtom w.ntr v).1.tr = v.tr ∧ (trAddToAtom w.ntr v).1.ntr = v.ntr := by
      unfold trAddToAtom
      simp only
      split <;> exact ⟨rfl, rfl⟩
    rcases hE : trAddToAtom w.ntr v with ⟨w2, r⟩
    rw [hE] at h3 h4
    cases r with
    | error e => exact ⟨h3.1, n2.trans hw h3.2, fun a h => by cases h⟩
    | ok u => exact ⟨h3.1, n2.trans hw h3.2, fun a h => by cases h; show w.ntr < w2.ntr ∧ EndsIn M (w2.tr w.ntr); rw [h4.1, h4.2]; exact v3⟩
  · exact ⟨n1, n2, fun a h => by cases h; exact v3⟩

theorem newTrans_ok {w : World} (hw : Inv M O w) {a b : Nat} (ha : M a) (hb : M b) (f : Option ℚ) (A : AArg) (ali : Option Str) :
    Ok M O w (newTrans a b f A ali w).1 := by
  refine Tri.okOf (P := fun _ => True) (Q := fun _ _ => True) ?_ hw trivial
  unfold newTrans
  refine Tri.bind stable_true (newTransObj_tri a b ha hb ali) (fun t => ?_)
  have t2 : Tri M O (fun w => True ∧ t < w.ntr ∧ EndsIn M (w.tr t)) (newTransAttrs t f A) (fun _ _ => True) := by
    rintro w hw ⟨-, ht, he⟩
    have key : ∀ al : Bool × Bool × Bool, Inv M O (w.setTr t { w.tr t with built := true, A := A.rate, allowed := al, setFreq := f }) ∧
        Out O w (w.setTr t { w.tr t with built := true, A := A.rate, allowed := al, setFreq := f }) :=
      fun al => setTr_ok hw (fun _ => hw.disj _ he.1) ⟨rfl, rfl, rfl, rfl⟩
    refine (fun (h : Inv M O (newTransAttrs t f A w).1 ∧ Out O w (newTransAttrs t f A w).1) => ⟨h.1, h.2, fun _ _ => trivial⟩) ?_
    unfold newTransAttrs
    split
    · exact ⟨hw, .refl w⟩
    · split
      · exact ⟨hw, .refl w⟩
      · rename_i al _
        simp only
        split
        · exact key al
        · split
          · exact Out.comp hw (key al) (fun h => site_ok h rfl)
          · exact key al
  refine Tri.bind ?_ t2 (fun _ => Tri.pure (fun _ _ _ => trivial))
  intro w w' _ ho h
  obtain ⟨a, b, c, d⟩ := ho.tre t h.2.1
  refine ⟨trivial, h.2.1.trans_le ho.ntr, ?_⟩
  unfold EndsIn
  rw [a, b, c, d]
  exact h.2.2

theorem newLevel_ok {w : World} (hw : Inv M O w) (t : Term) (E l A B C : ℚ) (ali : Option Str) : Ok M O w (newLevel t E l A B C ali w).1 := by
  unfold newLevel
  have hh : ∀ x : ELevel, ∀ i, i < w.nlv → upd w.lv w.nlv x i = w.lv i := fun x i hi => upd_ne _ _ _ (by omega)
  refine ⟨⟨hw.disj, fun i h => (hw.oLt i h).trans (Nat.lt_succ_self _), fun i h => (hw.mLt i h).trans (Nat.lt_succ_self _), hw.gok, hw.node, hw.edge, ?_,
    hw.trs, ?_, hw.zlOf, hw.zPar, ?_, ?_⟩, ⟨rfl, ?_, Nat.le_succ _, le_refl _, le_refl _, le_refl _, fun i h => hh _ i (hw.oLt i h),
    fun _ _ => rfl, fun _ _ _ => rfl, fun _ _ => rfl, fun _ _ _ => rfl, fun _ _ => ⟨rfl, rfl, rfl, rfl⟩, fun _ _ _ => rfl⟩⟩
  · intro a r h
    have := hw.ali a r h
    cases r <;> exact this
  · intro i k j h
    have h' : (upd w.lv w.nlv ⟨t, E, l, A, B, C, ali, false, false, []⟩ i).subs.get? k = some j := h
    by_cases hi : i = w.nlv
    · subst hi; rw [upd_same] at h'; cases h'
    · rw [upd_ne _ _ _ hi] at h'
      exact hw.hfOf i k j h'
  · intro i h1 h2
    show (upd w.lv w.nlv ⟨t, E, l, A, B, C, ali, false, false, []⟩ i).subs = []
    by_cases hi : i = w.nlv
    · subst hi; rw [upd_same]
    · rw [upd_ne _ _ _ hi]; exact hw.fresh i h1 h2
  · intro i hm k j h
    have h' : (upd w.lv w.nlv ⟨t, E, l, A, B, C, ali, false, false, []⟩ i).subs.get? k = some j := h
    show ∃ J F, (upd w.lv w.nlv ⟨t, E, l, A, B, C, ali, false, false, []⟩ i).term.J = some J ∧ k = fKey F ∧ F ∈ hfFs w.I J ∧
      ((upd w.lv w.nlv ⟨t, E, l, A, B, C, ali, false, false, []⟩ i).term.F = none → (w.hf j).term.F = some F)
    rw [hh _ i (hw.mLt i hm)] at h' ⊢
    exact hw.made i hm k j h'
  · intro i hi
    show (upd w.lv w.nlv ⟨t, E, l, A, B, C, ali, false, false, []⟩ i).term = _
    rw [hh _ i hi]

theorem setQuad_ok {w : World} (hw : Inv M O w) {z : Nat} (hz : Good M w (.zee z)) (q : ℚ) :
    Ok M O w (w.setZl z { w.zl z with quad := q }) := by
  have hp : ∀ z', ((w.setZl z { w.zl z with quad := q }).zl z').parent = (w.zl z').parent := by
    intro z'
    by_cases h : z' = z
    · subst h; simp [World.setZl, upd_same]
    · simp [World.setZl, upd_ne _ _ _ h]
  refine ⟨⟨hw.disj, hw.oLt, hw.mLt, hw.gok, hw.node, hw.edge, ?_, hw.trs, hw.hfOf, ?_, ?_, hw.fresh, hw.made⟩, ⟨rfl, fun _ _ => rfl, le_refl _, le_refl _, le_refl _, le_refl _,
    fun _ _ => rfl, fun _ _ => rfl, fun _ _ _ => rfl, fun z' _ => hp z', ?_, fun _ _ => ⟨rfl, rfl, rfl, rfl⟩, fun _ _ _ => rfl⟩⟩
  · intro a r h
    have := hw.ali a r h
    cases r with
    | fine i => exact this
    | hyp j => exact this
    | zee z' => exact ⟨this.1, by rw [hp]; exact this.2⟩
  · intro j k z' h
    exact ⟨(hw.zlOf j k z' h).1, (hp z').trans (hw.zlOf j k z' h).2⟩
  · intro z' h
    rw [hp]
    exact hw.zPar z' h
  · intro z' _ hO
    have : z' ≠ z := fun h => hw.disj _ hz.2 (h ▸ hO)
    simp [World.setZl, upd_ne _ _ _ this]

/-- What the arguments of a call must satisfy. -/
def Fits (M O : Nat → Prop) (w : World) : Op → Prop
  | .addLevel i _ _ => M i
  | .setItem _ i => M i
  | .getSub r _ => Good M w r
  | .setAlias r _ => Good M w r
  | .setEnergy i _ => ¬O i
  | .setHEnergy j _ => Good M w (.hyp j)
  | .setZEnergy z _ => Good M w (.zee z)
  | .setConsts i _ _ _ _ => ¬O i
  | .setQuad z _ => Good M w (.zee z)
  | .newTrans a b _ _ _ => M a ∧ M b
  | .addTransition _ t => t < w.ntr ∧ EndsIn M (w.tr t)
  | .setFrequency _ t _ => EndsIn M (w.tr t)
  | .fillSub t _ => EndsIn M (w.tr t)
  | _ => True

theorem step_ok {w : World} (hw : Inv M O w) {op : Op} (h : Fits M O w op) : Ok M O w (op.run w).1 := by
  cases op with
  | newLevel t E l A B C ali => show Ok M O w (Op.void _ w).1; rw [Op.void_fst]; exact newLevel_ok hw t E l A B C ali
  | addLevel i p ali => exact addLevel_ok hw h p ali
  | setItem key i => exact addLevel_ok hw h false (some key)
  | delItem key => exact levelsDel_ok hw key
  | getLevel key => show Ok M O w (Op.void _ w).1; rw [Op.void_fst]; exact (levelsGet_tri key).okOf hw trivial
  | getSub r key => show Ok M O w (Op.void _ w).1; rw [Op.void_fst]; exact (refItem_tri r key).okOf hw h
  | setAlias r al => exact setAlias_ok hw h al
  | setEnergy i v => exact setE_ok hw h v
  | setHEnergy j v => exact setHLevel_ok hw h v
  | setZEnergy z v => exact setZLevel_ok hw h v
  | setConsts i l A B C => exact setLv_ok hw h rfl rfl
  | setQuad z q => exact setQuad_ok hw h q
  | setB b => exact site_ok hw rfl
  | newTrans a b f A ali => show Ok M O w (Op.void _ w).1; rw [Op.void_fst]; exact newTrans_ok hw h.1 h.2 f A ali
  | addTransition σ t => exact addTransition_ok hw σ h.1 h.2
  | setFrequency σ t f => exact setFrequency_ok hw σ h f
  | enforce σ => exact (enforce_tri σ none).okOf hw trivial
  | fillSub t keys => exact setTr_ok hw (fun _ => hw.disj _ h.1) ⟨rfl, rfl, rfl, rfl⟩

end AtomTk.Apart
