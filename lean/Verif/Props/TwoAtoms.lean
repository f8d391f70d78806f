import Verif.Spec.TwoAtoms
import Verif.Proofs.TwoAtoms
import Verif.Props.Enforce
import Verif.Props.Level

/-!
# Two atoms in one program: C136, C137, C138
-/

namespace AtomTk
open Util World

namespace Two
open Apart

/-- The levels of the atom `k`. -/
def Of (s : Two) (k : Bool) (i : Nat) : Prop := s.owner i = some k

/-- The atom of the fields `x` in the world of another one. -/
def over (w : World) (x : Site) : World :=
  { w with I := x.I, B := x.B, g := x.g, lalias := x.lalias, talias := x.talias, warned := x.warned }

theorem has_good {s : Two} {k : Bool} {r : Ref} : s.Has k r ↔ Good (s.Of k) (s.view k) r := by cases r <;> exact Iff.rfl

theorem baseKey_of {s : Two} {k : Bool} (hi : Inv (s.Of k) (s.Of !k) (s.view k)) {key : Str} {i : Nat}
    (h : baseKey (s.view k) key = some i) : s.owner i = some k := by
  unfold baseKey at h
  split at h
  · rename_i r hr
    cases h
    have := has_good.2 (hi.ali _ _ hr)
    cases r
    · exact this
    · exact this.2
    · exact this.2
  · rw [Graph.get?_levelAttrs _ hi.gok.nodup] at h
    exact hi.node _ _ h

theorem lookup_eq {s : Two} {k : Bool} (hi : Inv (s.Of k) (s.Of !k) (s.view k)) (key : Str) : s.lookupWorld k key = s.view k := by
  unfold lookupWorld
  split
  · rename_i i h
    have : s.atomOf k i = k := by simp [atomOf, baseKey_of hi h]
    rw [this]
    rfl
  · rfl

theorem base_has {s : Two} {k : Bool} {r : Ref} (h : s.Has k r) : s.owner (base s.heap r) = some k := by
  cases r
  · exact h
  · exact h.2
  · exact h.2

/-- An allowed call acts in the atom it is made for. -/
theorem target_eq {s : Two} {k : Bool} {op : Op} (hi : Inv (s.Of k) (s.Of !k) (s.view k)) (ha : s.Allowed k op) : s.target k op = k := by
  obtain ⟨hs, hn⟩ := ha
  cases op with
  | getSub r key => simp [target, atomOf, base_has (r := r) hn]
  | setAlias r key => simp [target, atomOf, base_has (r := r) hn]
  | setHEnergy j v => simp [target, atomOf, base_has (r := .hyp j) hn]
  | setZEnergy z v => simp [target, atomOf, base_has (r := .zee z) hn]
  | newTrans a b f A ali =>
    have : s.owner a = some k := hi.node _ _ hs.1
    simp [target, atomOf, this]
  | setFrequency σ t f => simp [target, atomOf, hn.2]
  | _ => rfl

/-- What an allowed call does: a call of the single-atom model in the world of `k`; the other atom keeps its fields. -/
theorem run_view {s : Two} {k : Bool} {op : Op} (hi : Inv (s.Of k) (s.Of !k) (s.view k)) (ha : s.Allowed k op) :
    (run k op s).1.view k = (op.run (s.view k)).1 ∧ (run k op s).1.site (!k) = s.site (!k) ∧ (run k op s).1.owner = s.claim k op ∧
      (run k op s).2 = (op.run (s.view k)).2 := by
  have gen : (∀ key, op ≠ .getLevel key) → run k op s =
      ({ s.put (s.target k op) (op.run (s.view (s.target k op))).1 with owner := s.claim k op }, (op.run (s.view (s.target k op))).2) := by
    intro h
    cases op <;> first | rfl | exact absurd rfl (h _)
  by_cases hg : ∃ key, op = .getLevel key
  · obtain ⟨key, rfl⟩ := hg
    have hr : run k (.getLevel key) s = (s.putHeap ((Op.getLevel key).run (s.lookupWorld k key)).1, ((Op.getLevel key).run (s.lookupWorld k key)).2) := rfl
    rw [hr, lookup_eq hi]
    refine ⟨?_, rfl, rfl, rfl⟩
    have hf : LFrame (s.view k) ((Op.getLevel key).run (s.view k)).1 := by
      show LFrame _ (Op.void _ _).1
      rw [Op.void_fst]
      exact levelsGet_frame key _
    generalize ((Op.getLevel key).run (s.view k)).1 = w' at hf
    show over w' (s.site k) = w'
    have e1 : (s.site k).I = w'.I := hf.I.symm
    have e2 : (s.site k).B = w'.B := hf.B.symm
    have e3 : (s.site k).g = w'.g := hf.g.symm
    have e4 : (s.site k).lalias = w'.lalias := hf.lalias.symm
    have e5 : (s.site k).talias = w'.talias := hf.talias.symm
    have e6 : (s.site k).warned = w'.warned := hf.warned.symm
    unfold over
    rw [e1, e2, e3, e4, e5, e6]
  · rw [gen (fun key h => hg ⟨key, h⟩), target_eq hi ha]
    refine ⟨?_, ?_, rfl, rfl⟩
    · simp [view, put]
    · simp [put]

theorem view_over {s : Two} (k : Bool) : s.view (!k) = over (s.view k) (s.site (!k)) := rfl

/-- Adding a level that is not in the other atom to this one. -/
theorem widen {s : Two} {k : Bool} {op : Op} (hi : Inv (s.Of k) (s.Of !k) (s.view k)) (ha : s.Allowed k op) :
    Inv (fun i => s.claim k op i = some k) (s.Of !k) (s.view k) ∧ ∀ i, (s.claim k op i = some (!k) ↔ s.owner i = some (!k)) := by
  have key : ∀ i, i < s.heap.nlv → s.owner i ≠ some (!k) → Inv (fun j => upd s.owner i (some k) j = some k) (s.Of !k) (s.view k) ∧
      ∀ j, (upd s.owner i (some k) j = some (!k) ↔ s.owner j = some (!k)) := by
    intro i hlt hne
    have mono : ∀ j, s.Of k j → upd s.owner i (some k) j = some k := by
      intro j hj
      by_cases h : j = i
      · subst h; rw [upd_same]
      · rw [upd_ne _ _ _ h]; exact hj
    have back : ∀ j, upd s.owner i (some k) j = some k → s.Of k j ∨ j = i := by
      intro j hj
      by_cases h : j = i
      · exact .inr h
      · rw [upd_ne _ _ _ h] at hj; exact .inl hj
    have ends : ∀ x, EndsIn (s.Of k) x → EndsIn (fun j => upd s.owner i (some k) j = some k) x :=
      fun x h => ⟨mono _ h.1, mono _ h.2.1, mono _ h.2.2.1, mono _ h.2.2.2⟩
    refine ⟨⟨?_, hi.oLt, ?_, hi.gok, fun n j h => mono j (hi.node n j h), fun n m t h => ⟨(hi.edge n m t h).1, ends _ (hi.edge n m t h).2⟩, ?_,
      fun t ht => (hi.trs t ht).imp (ends _) id, hi.hfOf, hi.zlOf, hi.zPar, ?_, ?_⟩, ?_⟩
    · intro j hj hO
      rcases back j hj with h | rfl
      · exact hi.disj j h hO
      · exact hne hO
    · intro j hj
      rcases back j hj with h | rfl
      · exact hi.mLt j h
      · exact hlt
    · intro a r h
      have := hi.ali a r h
      cases r with
      | fine j => exact mono j this
      | hyp j => exact ⟨this.1, mono _ this.2⟩
      | zee z => exact ⟨this.1, mono _ this.2⟩
    · intro j h1 h2
      exact hi.fresh j (fun h => h1 (mono j h)) h2
    · intro j hj k' j' h
      rcases back j hj with h' | rfl
      · exact hi.made j h' k' j' h
      · by_cases hk : s.Of k j
        · exact hi.made j hk k' j' h
        · rw [hi.fresh j hk hne] at h
          cases h
    · intro j
      by_cases h : j = i
      · subst h
        rw [upd_same]
        constructor
        · intro e; exact absurd (Option.some.inj e) (by cases k <;> simp)
        · intro e; exact absurd e hne
      · rw [upd_ne _ _ _ h]
  have same : s.claim k op = s.owner → Inv (fun i => s.claim k op i = some k) (s.Of !k) (s.view k) ∧
      ∀ i, (s.claim k op i = some (!k) ↔ s.owner i = some (!k)) := by
    intro h
    rw [h]
    exact ⟨hi, fun _ => Iff.rfl⟩
  obtain ⟨hs, hn⟩ := ha
  cases op with
  | addLevel i p ali => exact key i hs.1 hn
  | setItem al i => exact key i hs.1 hn
  | _ => exact same rfl

/-- The arguments of an allowed call. -/
theorem fits {s : Two} {k : Bool} {op : Op} (hi : Inv (s.Of k) (s.Of !k) (s.view k)) (he : World.Ends (s.view k)) (ha : s.Allowed k op) :
    Fits (fun i => s.claim k op i = some k) (s.Of !k) (s.view k) op := by
  obtain ⟨hs, hn⟩ := ha
  have ends : ∀ t, t < s.heap.ntr → s.owner (s.heap.tr t).e1 = some k → EndsIn (s.Of k) (s.heap.tr t) := by
    intro t ht h
    rcases hi.trs t ht with h' | h'
    · exact h'
    · exact absurd h'.1 (hi.disj _ h)
  cases op with
  | addLevel i p ali => simp [Fits, claim, upd_same]
  | setItem al i => simp [Fits, claim, upd_same]
  | getSub r key => exact has_good.1 hn
  | setAlias r key => exact has_good.1 hn
  | setHEnergy j v => exact has_good.1 (show s.Has k (.hyp j) from hn)
  | setZEnergy z v => exact has_good.1 (show s.Has k (.zee z) from hn)
  | setQuad z q => exact has_good.1 (show s.Has k (.zee z) from hn)
  | setEnergy i v => exact hn
  | setConsts i l A B C => exact hn
  | newTrans a b f A ali => exact ⟨hi.node _ _ hs.1, hi.node _ _ hs.2.1⟩
  | addTransition σ t =>
    refine ⟨hs.1, ?_⟩
    have hl : s.owner (s.heap.tr t).lower = some k := hi.node _ _ hs.2.2.1
    have hu : s.owner (s.heap.tr t).upper = some k := hi.node _ _ hs.2.2.2
    rcases he t hs.1 with ⟨e1, e2⟩ | ⟨e1, e2⟩
    · have e1 : (s.heap.tr t).e1 = (s.heap.tr t).lower := e1
      have e2 : (s.heap.tr t).e2 = (s.heap.tr t).upper := e2
      exact ⟨by show s.owner (s.heap.tr t).e1 = some k; rw [e1]; exact hl, by show s.owner (s.heap.tr t).e2 = some k; rw [e2]; exact hu, hl, hu⟩
    · have e1 : (s.heap.tr t).e1 = (s.heap.tr t).upper := e1
      have e2 : (s.heap.tr t).e2 = (s.heap.tr t).lower := e2
      exact ⟨by show s.owner (s.heap.tr t).e1 = some k; rw [e1]; exact hu, by show s.owner (s.heap.tr t).e2 = some k; rw [e2]; exact hl, hl, hu⟩
  | setFrequency σ t f => exact ends t hn.1 hn.2
  | fillSub t keys => exact ends t hn.1 hn.2
  | _ => trivial

/-- The other atom's conditions after a call. -/
theorem flip {M O M' : Nat → Prop} {w w' : World} {x : Site} (h : Inv O M (over w x)) (h' : Inv M' O w') (ho : Out O w w') : Inv O M' (over w' x) where
  disj i hO hM := h'.disj i hM hO
  oLt i hi := h'.mLt i hi
  mLt i hi := h'.oLt i hi
  gok := h.gok
  node := h.node
  edge n m t ht := by
    obtain ⟨h1, h2⟩ := h.edge n m t ht
    have h1 : t < w.ntr := h1
    refine ⟨h1.trans_le ho.ntr, ?_⟩
    show EndsIn O (w'.tr t)
    rw [ho.tr t h1 h2.1]
    exact h2
  ali a r hr := by
    have := h.ali a r hr
    cases r with
    | fine i => exact this
    | hyp j =>
      have h1 : j < w.nhf := this.1
      exact ⟨h1.trans_le ho.nhf, by show O (w'.hf j).parent; rw [ho.hfp j h1]; exact this.2⟩
    | zee z =>
      have h1 : z < w.nzl := this.1
      exact ⟨h1.trans_le ho.nzl, by show O (w'.hf (w'.zl z).parent).parent; rw [ho.zlp z h1, ho.hfp (w.zl z).parent (h.zPar z h1)]; exact this.2⟩
  trs t ht := (h'.trs t ht).symm
  hfOf := h'.hfOf
  zlOf := h'.zlOf
  zPar := h'.zPar
  fresh i h1 h2 := h'.fresh i h2 h1
  made i hi k j hj := by
    have hj' : (w'.lv i).subs.get? k = some j := hj
    rw [ho.lv i hi] at hj'
    obtain ⟨h1, h2⟩ := h.hfOf i k j hj'
    have h1 : j < w.nhf := h1
    have h2 : (w.hf j).parent = i := h2
    show ∃ J F, (w'.lv i).term.J = some J ∧ k = fKey F ∧ F ∈ hfFs x.I J ∧ ((w'.lv i).term.F = none → (w'.hf j).term.F = some F)
    rw [ho.lv i hi, ho.hf j h1 (by rw [h2]; exact hi)]
    exact h.made i hi k j hj'

/-- The well-formedness of the other atom after a call. -/
theorem flip_wf {M O M' : Nat → Prop} {w w' : World} {x : Site} (h : Inv O M (over w x)) (h' : Inv M' O w') (ho : Out O w w')
    (hw : WF (over w x)) : WF (over w' x) := by
  have ln : ∀ i, O i → w'.lname i = w.lname i := by
    intro i hi
    show (w'.lv i).term.name = (w.lv i).term.name
    rw [ho.lv i hi]
  refine ⟨hw.gok, ?_, ?_⟩
  · intro n i hn
    obtain ⟨h1, h2, h3⟩ := hw.node n i hn
    have hO := h.node n i hn
    refine ⟨(ln i hO).trans h1, ?_, h'.oLt i hO⟩
    show (w'.lv i).inAtom = true
    rw [ho.lv i hO]
    exact h2
  · intro u v t ht
    obtain ⟨h1, h2, h3, h4, h5, h6⟩ := hw.edge u v t ht
    obtain ⟨-, e1, e2, el, eu⟩ := h.edge u v t ht
    have h1 : t < w.ntr := h1
    have htr : w'.tr t = w.tr t := ho.tr t h1 e1
    have el : O (w.tr t).lower := el
    have eu : O (w.tr t).upper := eu
    refine ⟨h1.trans_le ho.ntr, ?_⟩
    show (w'.tr t).built = true ∧ x.g.lev (w'.lname (w'.tr t).lower) = some (w'.tr t).lower ∧
      x.g.lev (w'.lname (w'.tr t).upper) = some (w'.tr t).upper ∧
      ((u = w'.lname (w'.tr t).lower ∧ v = w'.lname (w'.tr t).upper) ∨ (u = w'.lname (w'.tr t).upper ∧ v = w'.lname (w'.tr t).lower)) ∧
      (((w'.tr t).e1 = (w'.tr t).lower ∧ (w'.tr t).e2 = (w'.tr t).upper) ∨ ((w'.tr t).e1 = (w'.tr t).upper ∧ (w'.tr t).e2 = (w'.tr t).lower))
    rw [htr, ln (w.tr t).lower el, ln (w.tr t).upper eu]
    exact ⟨h2, h3, h4, h5, h6⟩

/-- What is kept for both atoms. -/
def Kept (s : Two) : Prop := ∀ k, Inv (s.Of k) (s.Of !k) (s.view k) ∧ WF (s.view k) ∧ World.Ends (s.view k)

theorem step_out {s : Two} (hk : s.Kept) {k : Bool} {op : Op} (ha : s.Allowed k op) :
    (run k op s).1.Kept ∧ Out (s.Of !k) (s.view k) ((run k op s).1.view k) ∧ ∀ i, ((run k op s).1.owner i = some (!k) ↔ s.owner i = some (!k)) := by
  obtain ⟨hi, hw, he⟩ := hk k
  obtain ⟨r1, r2, r3, -⟩ := run_view hi ha
  obtain ⟨w1, w2⟩ := widen hi ha
  obtain ⟨o1, o2⟩ := step_ok w1 (fits hi he ha)
  have hwf := step_inv ⟨hw, he⟩ op ha.1
  rw [← r1] at o1 o2 hwf
  have hO : (run k op s).1.Of (!k) = s.Of (!k) := by
    funext i
    simp only [Of, r3]
    exact propext (w2 i)
  have hM : (run k op s).1.Of k = fun i => s.claim k op i = some k := by
    funext i
    simp only [Of, r3]
  refine ⟨?_, o2, fun i => by rw [r3]; exact w2 i⟩
  have hk1 : Inv ((run k op s).1.Of k) ((run k op s).1.Of !k) ((run k op s).1.view k) ∧ WF ((run k op s).1.view k) ∧
      World.Ends ((run k op s).1.view k) := by
    rw [hO, hM]
    exact ⟨o1, hwf⟩
  obtain ⟨i2, f2, e2⟩ := hk (!k)
  rw [Bool.not_not, view_over] at i2
  rw [view_over] at f2
  have hk2 : Inv ((run k op s).1.Of !k) ((run k op s).1.Of k) ((run k op s).1.view !k) ∧ WF ((run k op s).1.view !k) ∧
      World.Ends ((run k op s).1.view !k) := by
    rw [hO, hM, view_over, r2]
    exact ⟨flip i2 o1 o2, flip_wf i2 o1 o2 f2, hwf.2⟩
  intro b
  by_cases hb : b = k
  · subst hb; exact hk1
  · have : b = !k := by cases b <;> cases k <;> simp_all
    subst this
    rw [Bool.not_not]
    exact hk2

theorem kept_empty (I B I' B' : ℚ) : (empty I B I' B').Kept := by
  intro k
  have hg : ((empty I B I' B').view k).g = [] := by cases k <;> rfl
  have hl : ((empty I B I' B').view k).lalias = [] := by cases k <;> rfl
  refine ⟨⟨?_, ?_, ?_, ?_, ?_, ?_, ?_, ?_, ?_, ?_, ?_, ?_, ?_⟩, ⟨?_, ?_, ?_⟩, ?_⟩
  · intro i h; cases h
  · intro i h; cases h
  · intro i h; cases h
  · rw [hg]; exact Graph.Ok.empty
  · intro n i h; rw [hg] at h; simp [Graph.lev, Dict.get?] at h
  · intro n m t h; rw [hg] at h; simp [Graph.adj, Dict.get?] at h
  · intro a r h; rw [hl] at h; simp [Dict.get?] at h
  · intro t ht; simp [view, empty, emptyAtom] at ht
  · intro i k j h; simp [view, empty, emptyAtom, Dict.get?] at h
  · intro j k z h; simp [view, empty, emptyAtom, Dict.get?] at h
  · intro z h; simp [view, empty, emptyAtom] at h
  · intro i _ _; rfl
  · intro i h; cases h
  · rw [hg]; exact Graph.Ok.empty
  · intro n i h; rw [hg] at h; simp [Graph.lev, Dict.get?] at h
  · intro n m t h; rw [hg] at h; simp [Graph.adj, Dict.get?] at h
  · intro t ht; simp [view, empty, emptyAtom] at ht

theorem Separate.kept {s : Two} (h : Separate s) : s.Kept := by
  induction h with
  | empty I B I' B' => exact kept_empty I B I' B'
  | step k op _ ha ih => exact (step_out ih ha).1

end Two

open Two

/-! ## C136 -/

/-- The atom `k` is in both states the same: its names, aliases, spin and field; which levels it has, their energies, constants and sublevels;
its transitions; and what the energies of its levels of all kinds and the frequencies of its transitions read. -/
structure SameAtom (k : Bool) (s s' : Two) : Prop where
  site : s'.site k = s.site k
  owner : ∀ i, s'.owner i = some k ↔ s.owner i = some k
  lv : ∀ i, s.owner i = some k → s'.heap.lv i = s.heap.lv i
  has : ∀ r, s.Has k r → s'.Has k r ∧ s'.hz r = s.hz r
  hf : ∀ j, s.Has k (.hyp j) → s'.heap.hf j = s.heap.hf j
  zl : ∀ z, s.Has k (.zee z) → s'.heap.zl z = s.heap.zl z
  tr : ∀ t, t < s.heap.ntr → s.owner (s.heap.tr t).e1 = some k → t < s'.heap.ntr ∧ s'.heap.tr t = s.heap.tr t ∧ s'.heap.freqHz t = s.heap.freqHz t

theorem SameAtom.trans {k : Bool} {a b c : Two} (h1 : SameAtom k a b) (h2 : SameAtom k b c) : SameAtom k a c where
  site := h2.site.trans h1.site
  owner i := (h2.owner i).trans (h1.owner i)
  lv i hi := (h2.lv i ((h1.owner i).2 hi)).trans (h1.lv i hi)
  has r hr := ⟨(h2.has r (h1.has r hr).1).1, (h2.has r (h1.has r hr).1).2.trans (h1.has r hr).2⟩
  hf j hj := (h2.hf j (h1.has _ hj).1).trans (h1.hf j hj)
  zl z hz := (h2.zl z (h1.has _ hz).1).trans (h1.zl z hz)
  tr t ht he := by
    obtain ⟨a1, a2, a3⟩ := h1.tr t ht he
    obtain ⟨b1, b2, b3⟩ := h2.tr t a1 (by rw [a2]; exact (h1.owner _).2 he)
    exact ⟨b1, b2.trans a2, b3.trans a3⟩

/-- C136: in programs that do not share levels, a call made for one atom leaves the other one as it was.  Missing: programs that share levels. -/
theorem C136_call_partial {s : Two} (h : Separate s) {k : Bool} {op : Op} (ha : s.Allowed k op) : SameAtom (!k) s (run k op s).1 := by
  obtain ⟨-, ho, how⟩ := step_out h.kept ha
  obtain ⟨hi, hw, he⟩ := h.kept k
  obtain ⟨-, r2, -, -⟩ := run_view hi ha
  generalize hs' : (run k op s).1 = s' at *
  have lv : ∀ i, s.owner i = some (!k) → s'.heap.lv i = s.heap.lv i := ho.lv
  have hf : ∀ j, s.Has (!k) (.hyp j) → s'.heap.hf j = s.heap.hf j := fun j hj => ho.hf j hj.1 hj.2
  have zl : ∀ z, s.Has (!k) (.zee z) → s'.heap.zl z = s.heap.zl z := fun z hz => ho.zl z hz.1 hz.2
  have hb : ∀ r, s.Has (!k) r → base s'.heap r = base s.heap r := by
    intro r hr
    cases r with
    | fine i => rfl
    | hyp j => show (s'.heap.hf j).parent = _; rw [hf j hr]; rfl
    | zee z =>
      show (s'.heap.hf (s'.heap.zl z).parent).parent = _
      rw [zl z hr, hf (s.heap.zl z).parent ⟨hi.zPar z hr.1, hr.2⟩]; rfl
  refine ⟨r2, how, lv, ?_, hf, zl, ?_⟩
  · intro r hr
    have hE : s.owner (base s.heap r) = some (!k) := base_has hr
    have hE' : s'.owner (base s'.heap r) = some (!k) := by rw [hb r hr]; exact (how _).2 hE
    refine ⟨?_, ?_⟩
    · cases r with
      | fine i => exact hE'
      | hyp j => exact ⟨hr.1.trans_le ho.nhf, hE'⟩
      | zee z => exact ⟨hr.1.trans_le ho.nzl, hE'⟩
    · have hat : s.atomOf false (base s.heap r) = !k := by simp [atomOf, hE]
      have hat' : s'.atomOf false (base s'.heap r) = !k := by simp [atomOf, hE']
      unfold hz
      rw [hat, hat']
      have hI : (s'.view (!k)).I = (s.view (!k)).I := by show (s'.site (!k)).I = _; rw [r2]; rfl
      have hB : (s'.view (!k)).B = (s.view (!k)).B := by show (s'.site (!k)).B = _; rw [r2]; rfl
      have hh : ∀ j, s.Has (!k) (.hyp j) → (s'.view (!k)).hHz j = (s.view (!k)).hHz j := by
        intro j hj
        have e1 : (s'.view (!k)).hf j = (s.view (!k)).hf j := hf j hj
        have e2 : (s'.view (!k)).lv ((s.view (!k)).hf j).parent = (s.view (!k)).lv ((s.view (!k)).hf j).parent := lv _ hj.2
        simp only [World.hHz, World.hShift, World.eHz, e1, e2, hI]
      cases r with
      | fine i =>
        show Except.ok (s'.heap.lv i).levelHz = Except.ok (s.heap.lv i).levelHz
        rw [lv i hr]
      | hyp j => exact hh j hr
      | zee z =>
        have e1 : (s'.view (!k)).zl z = (s.view (!k)).zl z := zl z hr
        show (s'.view (!k)).zHz z = (s.view (!k)).zHz z
        have e2 := hh (s.heap.zl z).parent ⟨hi.zPar z hr.1, hr.2⟩
        simp only [World.zHz, World.zShiftHz, e1, hB]
        rw [show ((s.view (!k)).zl z).parent = (s.heap.zl z).parent from rfl, e2]
  · intro t ht hO
    have htr : s'.heap.tr t = s.heap.tr t := ho.tr t ht hO
    refine ⟨ht.trans_le ho.ntr, htr, ?_⟩
    have hends : Apart.EndsIn (s.Of !k) (s.heap.tr t) := by
      rcases hi.trs t ht with h' | h'
      · exact absurd hO (hi.disj _ h'.1)
      · exact h'
    unfold World.freqHz World.eHz
    rw [htr, lv _ hends.1, lv _ hends.2.1]

/-- C136 for any number of calls. -/
theorem C136_calls_partial {s : Two} (h : Separate s) {k : Bool} {ops : List Op} (ha : AllowedAll (ops.map (fun op => (k, op))) s) :
    SameAtom (!k) s (Two.runAll (ops.map (fun op => (k, op))) s) := by
  induction ops generalizing s with
  | nil => exact ⟨rfl, fun _ => Iff.rfl, fun _ _ => rfl, fun _ h => ⟨h, rfl⟩, fun _ _ => rfl, fun _ _ => rfl, fun _ h _ => ⟨h, rfl, rfl⟩⟩
  | cons op ops ih => exact (C136_call_partial h ha.1).trans (ih (.step k op h ha.1) ha.2)

theorem single_step {s : Two} {k : Bool} (ho : ∀ i, s.owner i = none ∨ s.owner i = some k) (op : Op) :
    (run k op s).1.view k = (op.run (s.view k)).1 ∧ (run k op s).2 = (op.run (s.view k)).2 ∧
      ∀ i, (run k op s).1.owner i = none ∨ (run k op s).1.owner i = some k := by
  have hat : ∀ i, s.atomOf k i = k := by
    intro i
    unfold atomOf
    rcases ho i with h | h <;> rw [h] <;> rfl
  have ht : s.target k op = k := by
    unfold target
    split <;> first | exact hat _ | rfl
  have hc : ∀ i, s.claim k op i = none ∨ s.claim k op i = some k := by
    intro i
    unfold claim
    split
    · unfold upd; split
      · exact .inr rfl
      · exact ho i
    · unfold upd; split
      · exact .inr rfl
      · exact ho i
    · exact ho i
  have hput : ∀ w : World, (s.put k w).view k = w := by
    intro w
    simp [view, put]
  by_cases hg : ∃ key, op = .getLevel key
  · obtain ⟨key, rfl⟩ := hg
    have hl : s.lookupWorld k key = s.view k := by
      unfold lookupWorld
      split
      · rw [hat]; rfl
      · rfl
    have hf := levelsGet_frame key (s.view k)
    have he : ((Op.getLevel key).run (s.view k)).1 = (World.levelsGet key (s.view k)).1 := Op.void_fst ..
    refine ⟨?_, ?_, ho⟩
    · show (s.putHeap _).view k = _
      rw [hl, he]
      generalize (World.levelsGet key (s.view k)).1 = w at hf
      obtain ⟨h1, h2, -, -, -, h3, h4, h5, h6, -⟩ := hf
      cases w
      simp only [view, putHeap] at *
      subst h1 h2 h3 h4 h5 h6
      rfl
    · show ((Op.getLevel key).run (s.lookupWorld k key)).2 = _
      rw [hl]
  · have hr : run k op s = ({ s.put (s.target k op) (op.run (s.view (s.target k op))).1 with owner := s.claim k op }, (op.run (s.view (s.target k op))).2) := by
      cases op <;> first | rfl | exact absurd ⟨_, rfl⟩ hg
    rw [hr, ht]
    exact ⟨hput _, rfl, hc⟩

/-- C136: a program that makes two atoms and uses one of them is the program with that atom only. -/
theorem C136_single (I B I' B' : ℚ) (k : Bool) (ops : List Op) :
    (Two.runAll (ops.map (fun op => (k, op))) (Two.empty I B I' B')).view k = AtomTk.runAll ops (if k then emptyAtom I' B' else emptyAtom I B) := by
  have key : ∀ (ops : List Op) (s : Two), (∀ i, s.owner i = none ∨ s.owner i = some k) →
      (Two.runAll (ops.map (fun op => (k, op))) s).view k = AtomTk.runAll ops (s.view k) := by
    intro ops
    induction ops with
    | nil => intro s _; rfl
    | cons op ops ih =>
      intro s hs
      obtain ⟨h1, -, h3⟩ := single_step hs op
      show (Two.runAll (ops.map (fun op => (k, op))) (run k op s).1).view k = AtomTk.runAll ops (op.run (s.view k)).1
      rw [ih _ h3, h1]
  rw [key ops _ (fun i => .inl rfl)]
  cases k <;> rfl

/-- Two atoms, spins 1/2 and 0, with two levels each; in each a transition, whose frequency is set but not enforced. -/
def duoOps : List (Bool × Op) :=
  [(false, .newLevel (demoTerm 'g') 0 2 4 0 0 none), (false, .newLevel (demoTerm 'a') 500 2 8 0 0 none),
   (true, .newLevel (demoTerm 'g') 7 2 0 0 0 none), (true, .newLevel (demoTerm 'a') 300 2 0 0 0 none),
   (false, .addLevel 0 false none), (false, .addLevel 1 false none), (true, .addLevel 2 false none), (true, .addLevel 3 false none),
   (false, .newTrans 0 1 (some 600) .none none), (true, .newTrans 2 3 (some 200) .none none), (true, .getLevel "a 2S1/2 F=1/2".toList)]

/-- The state after `duoOps`. -/
def duo : Two := Two.runAll duoOps (Two.empty (1/2) 0 0 0)

theorem duo_separate : Separate duo := (Separate.empty (1/2) 0 0 0).runAll (by decide +kernel)

/-- Both atoms have levels of the same names.  Enforcing and computing sublevels in the first one moves its upper level only. -/
example : SameAtom true duo (Two.runAll ([Op.enforce idOrd, .getLevel "a 2S1/2 F=1".toList, .setFrequency idOrd 0 700].map (fun op => (false, op))) duo) ∧
    (Two.runAll [(false, .enforce idOrd)] duo).hz (.fine 1) = .ok 600 ∧ duo.hz (.fine 1) = .ok 500 ∧ duo.hz (.hyp 0) = .ok 300 ∧ duo.Has true (.hyp 0) := by
  have h := C136_calls_partial duo_separate (k := false) (ops := [Op.enforce idOrd, .getLevel "a 2S1/2 F=1".toList, .setFrequency idOrd 0 700])
    (by decide +kernel)
  exact ⟨h, by decide +kernel, by decide +kernel, by decide +kernel, by decide +kernel⟩

/-- The full claim C136: also when a level was added to both atoms, enforcing the frequencies of one atom moves no level of the other. -/
def C136_full : Prop := ∀ (I B I' B' : ℚ) (l : List (Bool × Op)) (k : Bool) (σ : Ord') (n : Str) (i : Nat), SaneRun l (Two.empty I B I' B') →
  ((Two.runAll l (Two.empty I B I' B')).site (!k)).g.lev n = some i →
  (s' : Two) → s' = Two.runAll l (Two.empty I B I' B') → ((run k (.enforce σ) s').1.heap.lv i).levelHz = (s'.heap.lv i).levelHz

/-- Two levels in the first atom, with a transition; the upper one is added to the second atom, too. -/
def sharedOps : List (Bool × Op) :=
  [(false, .newLevel (demoTerm 'g') 0 2 4 0 0 none), (false, .newLevel (demoTerm 'a') 500 2 8 0 0 none), (false, .addLevel 0 false none),
   (false, .addLevel 1 false none), (false, .newTrans 0 1 (some 600) .none none), (true, .addLevel 1 false none)]

/-- C136 is false for shared levels: the level is one object, and the first atom moves it. -/
theorem C136_fails : ¬C136_full := by
  intro h
  have := h (1/2) 0 0 0 sharedOps false idOrd (demoName 'a') 1 (by decide +kernel) (by decide +kernel) _ rfl
  revert this
  decide +kernel

/-! ## C137 -/

/-- The sublevels of the level `i` are hyperfine levels for the nuclear spin `I`: they have its keys, and its `F` unless the level itself has one. -/
def RightF (s : Two) (i : Nat) (I : ℚ) : Prop :=
  ∀ key j J, (s.heap.lv i).subs.get? key = some j → (s.heap.lv i).term.J = some J → IsSpin I → IsSpin J →
    ∃ F : ℚ, key = "F=".toList ++ numToFrac F ∧ (|J - I| ≤ F ∧ F ≤ J + I ∧ ∃ z : ℤ, F - J - I = z) ∧ ((s.heap.lv i).term.F = none → (s.heap.hf j).term.F = some F)

/-- The full claim C137: the sublevels of a level of an atom are those for the nuclear spin of the atom. -/
def C137_full : Prop := ∀ (I B I' B' : ℚ) (l : List (Bool × Op)) (k : Bool) (n : Str) (i : Nat), SaneRun l (Two.empty I B I' B') →
  ((Two.runAll l (Two.empty I B I' B')).site k).g.lev n = some i →
  RightF (Two.runAll l (Two.empty I B I' B')) i ((Two.runAll l (Two.empty I B I' B')).site k).I

/-- C137 in programs that do not share levels.  Missing: programs that add a level to a second atom. -/
theorem C137_spin_partial {s : Two} (h : Separate s) {k : Bool} {i : Nat} (hi : s.owner i = some k) : RightF s i (s.site k).I := by
  intro key j J hj hJ hI hs
  obtain ⟨J', F, h1, h2, h3, h4⟩ := (h.kept k).1.made i hi key j hj
  cases Option.some.inj (hJ.symm.trans h1)
  exact ⟨F, h2, ((C13_multiplet _ J hI hs).1 F).1 h3, h4⟩

/-- The levels found by name in the atom are its levels, so that C137 is about all of them. -/
theorem C137_levels {s : Two} (h : Separate s) {k : Bool} {n : Str} {i : Nat} (hn : (s.site k).g.lev n = some i) : s.owner i = some k :=
  (h.kept k).1.node n i hn

/-- The level `a` of the second atom, which has spin 0, has the one sublevel `F=1/2`. -/
example : (duo.site true).g.lev (demoName 'a') = some 3 ∧ (duo.heap.lv 3).subs.get? "F=1/2".toList = some 0 ∧ (duo.heap.hf 0).term.F = some (1/2) ∧
    RightF duo 3 0 :=
  ⟨by decide +kernel, by decide +kernel, by decide +kernel, C137_spin_partial duo_separate (k := true) (by decide +kernel)⟩

/-- A level with its sublevels in an atom of spin 0 is added to an atom of spin 1/2. -/
def moveOps : List (Bool × Op) :=
  [(true, .newLevel (demoTerm 'g') 0 2 4 0 0 none), (true, .addLevel 0 true none), (false, .addLevel 0 false none)]

/-- C137 is false in general: the sublevels computed for one atom stay when the level is added to another one. -/
theorem C137_fails : ¬C137_full := by
  intro h
  have hI : ((Two.runAll moveOps (Two.empty (1/2) 0 0 0)).site false).I = 1/2 := by decide +kernel
  have half : IsSpin (1/2) := ⟨1, by norm_num⟩
  obtain ⟨F, -, h3, h4⟩ := h (1/2) 0 0 0 moveOps false (demoName 'g') 0 (by decide +kernel) (by decide +kernel) "F=1/2".toList 0 (1/2) (by decide +kernel)
    (by decide +kernel) (by rw [hI]; exact half) half
  have hF : F = 1/2 := by
    have hn : ((Two.runAll moveOps (Two.empty (1/2) 0 0 0)).heap.lv 0).term.F = none := by decide +kernel
    have : ((Two.runAll moveOps (Two.empty (1/2) 0 0 0)).heap.hf 0).term.F = some (1/2) := by decide +kernel
    exact Option.some.inj ((h4 hn).symm.trans this)
  obtain ⟨-, -, z, hz⟩ := h3
  rw [hI, hF] at hz
  have : (2 * z : ℚ) = -1 := by linarith
  have : (2 * z : ℤ) = -1 := by exact_mod_cast this
  omega

/-- In that atom the level has no sublevel `F=0`. -/
theorem C137_missing : ((Two.runAll moveOps (Two.empty (1/2) 0 0 0)).run false (.getLevel "g 2S1/2 F=0".toList)).2 = .error .KeyError := by
  decide +kernel

/-! ## C138 -/

/-- The full claim C138: a first frequency set on the only transition of a program takes effect in the atom that has it. -/
def C138_full : Prop := ∀ (I B I' B' : ℚ) (l : List (Bool × Op)) (k b : Bool) (σ : Ord') (t : Nat) (f : ℚ), SaneRun l (Two.empty I B I' B') →
  Shuffles σ → (s : Two) → s = Two.runAll l (Two.empty I B I' B') → InAtom (s.view k) t → s.heap.ntr = 1 → (∀ i, (s.heap.lv i).fixed = false) → 0 ≤ f →
  (run b (.setFrequency σ t f) s).1.heap.freqHz t = f

/-- C138 in programs that do not share levels, for groups as in `C37_first_partial`: whatever the atom in which the call is written, the frequency
takes effect in the atom that has the transition, and the other one keeps its fields.  Missing: programs that share levels. -/
theorem C138_first_partial {s : Two} (h : Separate s) {k b : Bool} {σ : Ord'} (hσ : Shuffles σ) {t : Nat} {f : ℚ} (ht : InAtom (s.view k) t) (hf : 0 ≤ f)
    (hlf : LoopFree (withFreq (s.view k) t f) (GroupOf (s.view k) t f)) (hpos : ∀ n m t' f', SetEdge (s.view k) n m t' f' → 0 ≤ f')
    (hun : ∀ i, InX (s.view k) (GroupOf (s.view k) t f) i → (s.heap.lv i).fixed = false) :
    (run b (.setFrequency σ t f) s).2 = .ok () ∧ (run b (.setFrequency σ t f) s).1.heap.freqHz t = f ∧
      (∀ n m t' f', GroupOf (s.view k) t f n → SetEdge (s.view k) n m t' f' → t' ≠ t → (run b (.setFrequency σ t f) s).1.heap.freqHz t' = f') ∧
      SameAtom (!k) s (run b (.setFrequency σ t f) s).1 := by
  obtain ⟨hi, hw, -⟩ := h.kept k
  obtain ⟨h1, h2⟩ := hi.edge _ _ _ ht
  have hown : s.owner (s.heap.tr t).e1 = some k := h2.1
  have hrun : run b (.setFrequency σ t f) s = run k (.setFrequency σ t f) s := by
    simp [run, target, atomOf, hown, claim]
  rw [hrun]
  have ha : s.Allowed k (.setFrequency σ t f) := ⟨trivial, h1, hown⟩
  obtain ⟨r1, -, -, r4⟩ := run_view hi ha
  obtain ⟨w', e1, e2, e3, -⟩ := first_wf hw hσ ht hf hlf hpos hun
  have e1 : (Op.setFrequency σ t f).run (s.view k) = (w', .ok ()) := e1
  rw [e1] at r1 r4
  have hfr : ∀ t', (run k (.setFrequency σ t f) s).1.heap.freqHz t' = w'.freqHz t' := by
    intro t'
    have r1 : (run k (.setFrequency σ t f) s).1.view k = w' := r1
    rw [← r1]
    rfl
  exact ⟨r4, by rw [hfr]; exact e2, fun n m t' f' a b c => by rw [hfr]; exact e3 n m t' f' a b c, C136_call_partial h ha⟩

/-- The transition of the first atom of `duo` set to 700, by a call written for the second one. -/
example : (run true (.setFrequency idOrd 0 700) duo).1.heap.freqHz 0 = 700 ∧ SameAtom true duo (run true (.setFrequency idOrd 0 700) duo).1 := by
  have h := C138_first_partial duo_separate (k := false) (b := true) (σ := idOrd) idOrd_shuffles (t := 0) (f := 700) (by decide +kernel) (by norm_num)
    (loopFree_of_parent chainPar chainRk (by decide +kernel) _)
    (fun n m t f he => forall_setEdge (w := duo.view false) (P := fun _ _ _ f => 0 ≤ f) (by decide +kernel) he)
    (fun i hi => forall_level (w := duo.view false) (P := fun i => (duo.heap.lv i).fixed = false) (by decide +kernel) hi)
  exact ⟨h.2.1, h.2.2.2⟩

/-- Two levels in the first atom, with a transition without frequency; then its first level is added to the second atom. -/
def takenOps : List (Bool × Op) :=
  [(false, .newLevel (demoTerm 'g') 0 2 4 0 0 none), (false, .newLevel (demoTerm 'a') 500 2 8 0 0 none), (false, .addLevel 0 false none),
   (false, .addLevel 1 false none), (false, .newTrans 0 1 none .none none), (true, .addLevel 0 false none)]

/-- C138 is false in general: once a level of the transition is in a second atom, the frequencies of that one are enforced, and the transition keeps
the frequency it had. -/
theorem C138_fails : ¬C138_full := by
  intro h
  have := h (1/2) 0 0 0 takenOps false false idOrd 0 600 (by decide +kernel) idOrd_shuffles _ rfl (by decide +kernel) (by decide +kernel) ?_ (by decide +kernel)
  · revert this
    decide +kernel
  · intro i
    have : ∀ (l : List (Bool × Op)) i, l = takenOps → ((Two.runAll l (Two.empty (1/2) 0 0 0)).heap.lv i).fixed = false := by
      rintro _ i rfl
      rcases i with _ | _ | i
      · decide +kernel
      · decide +kernel
      · rfl
    exact this _ i rfl

end AtomTk
