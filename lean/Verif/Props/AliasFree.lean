import Verif.Props.Field

/-!
# C180: aliases are only names
-/

namespace AtomTk
open Util World

/-- The level without its alias. -/
def ELevel.bare (e : ELevel) : ELevel := { e with ali := none }
/-- The transition without its alias. -/
def Trans.bare (x : Trans) : Trans := { x with ali := none }
/-- The atom without aliases. -/
def World.bare (w : World) : World := { w with lv := fun i => (w.lv i).bare, tr := fun t => (w.tr t).bare, lalias := [], talias := [] }

/-- Without aliases the call does the same and gives the same. -/
def Unnamed {α : Type} (w : World) (m : PyM α) : Prop := m w.bare = ((m w).1.bare, (m w).2)

theorem Unnamed.bind {α β : Type} {w : World} {m : PyM α} {f : α → PyM β} (h : Unnamed w m)
    (hf : ∀ a w1, m w = (w1, Except.ok a) → Unnamed w1 (f a)) : Unnamed w (m >>= f) := by
  unfold Unnamed at *
  rw [PyM.bind_def, PyM.bind_def, h]
  rcases hm : m w with ⟨w1, e | a⟩
  · rfl
  · exact hf a w1 hm

theorem Unnamed.get {β : Type} {w : World} {f : World → PyM β} (h : f w.bare w.bare = ((f w w).1.bare, (f w w).2)) : Unnamed w (PyM.get >>= f) := h
theorem Unnamed.const {α : Type} (w : World) (r : Py α) : Unnamed w (PyM.lift r) := rfl
theorem Unnamed.raise {α : Type} (w : World) (e : PyErr) : Unnamed w (PyM.raise e : PyM α) := rfl
theorem Unnamed.pure {α : Type} (w : World) (a : α) : Unnamed w (Pure.pure a : PyM α) := rfl

theorem Unnamed.void {α : Type} {w : World} {m : PyM α} (h : Unnamed w m) : Unnamed w (Op.void m) := by
  unfold Unnamed Op.void at *
  rw [h]
  rcases m w with ⟨w1, e | a⟩ <;> rfl

theorem upd_bareE (f : Nat → ELevel) (i : Nat) (e : ELevel) : upd (fun k => (f k).bare) i e.bare = fun k => (upd f i e k).bare := by
  funext k
  unfold upd
  split <;> rfl

theorem upd_bareT (f : Nat → Trans) (i : Nat) (e : Trans) : upd (fun k => (f k).bare) i e.bare = fun k => (upd f i e k).bare := by
  funext k
  unfold upd
  split <;> rfl

theorem bare_setLv (w : World) (i : Nat) (e : ELevel) : w.bare.setLv i e.bare = (w.setLv i e).bare := by
  have := upd_bareE w.lv i e
  show ({ w.bare with lv := upd (fun k => (w.lv k).bare) i e.bare } : World) = _
  rw [this]
  rfl

theorem bare_setTr (w : World) (i : Nat) (e : Trans) : w.bare.setTr i e.bare = (w.setTr i e).bare := by
  have := upd_bareT w.tr i e
  show ({ w.bare with tr := upd (fun k => (w.tr k).bare) i e.bare } : World) = _
  rw [this]
  rfl

theorem bare_setE (w : World) (i : Nat) (v : ℚ) : w.bare.setE i v = (w.setE i v).bare := bare_setLv w i { w.lv i with levelHz := v }
theorem bare_setFixed (w : World) (i : Nat) (b : Bool) : w.bare.setFixed i b = (w.setFixed i b).bare := bare_setLv w i { w.lv i with fixed := b }

/-! ## Populating and looking up -/

theorem popHF1_unnamed (i : Nat) (f : ℚ) (w : World) : Unnamed w (popHF1 i f) := by
  unfold Unnamed popHF1
  show (match (w.lv i).term.makeCopy (.num f) .none with
    | Except.error e => (w.bare, Except.error e)
    | Except.ok t => match t.J, t.F with
      | some J, some F => match compGF (w.lv i).lande w.I J F with
        | Except.error e => (w.bare, Except.error e)
        | Except.ok g => ({ w.bare with
            nhf := w.nhf + 1
            hf := upd w.hf w.nhf ⟨t, i, g, []⟩
            lv := upd (fun k => (w.lv k).bare) i (ELevel.bare { w.lv i with subs := (w.lv i).subs.set (fKey f) w.nhf }) }, Except.ok ())
      | _, _ => (w.bare, Except.error PyErr.TypeError)) = _
  rw [upd_bareE]
  rcases (w.lv i).term.makeCopy (.num f) .none with e | t
  · rfl
  · simp only
    rcases t.J with _ | J
    · rfl
    rcases t.F with _ | F
    · rfl
    simp only
    rcases compGF (w.lv i).lande w.I J F with e | g <;> rfl

theorem popHFs_unnamed (i : Nat) (l : List ℚ) (w : World) : Unnamed w (popHFs i l) := by
  induction l generalizing w with
  | nil => exact .pure w ()
  | cons f fs ih =>
    unfold popHFs
    exact Unnamed.bind (popHF1_unnamed i f w) fun _ w1 _ => ih w1

theorem populateHF_unnamed (i : Nat) (w : World) : Unnamed w (populateHF i) := by
  unfold Unnamed populateHF
  show (if (w.lv i).inAtom then match (w.lv i).term.J with
    | some J => popHFs i (hfFs w.I J) w.bare
    | none => (w.bare, Except.error PyErr.TypeError)
    else (w.bare, Except.ok ())) = _
  split
  · cases (w.lv i).term.J with
    | none => rfl
    | some J => exact popHFs_unnamed i _ w
  · rfl

theorem lazyHF_unnamed (i : Nat) (w : World) : Unnamed w (lazyHF i) := by
  unfold Unnamed lazyHF
  show (if (w.lv i).subs.length = 0 then
    if (w.lv i).inAtom then populateHF i w.bare else (w.bare, Except.error PyErr.AttributeError)
    else (w.bare, Except.ok ())) = _
  split_ifs
  · exact populateHF_unnamed i w
  · rfl
  · rfl

theorem popZ1_unnamed (j : Nat) (m : ℚ) (w : World) : Unnamed w (popZ1 j m) := by
  unfold Unnamed popZ1
  show (match (w.hf j).term.makeCopy .none (.num m) with
    | Except.error e => (w.bare, Except.error e)
    | Except.ok t => match t.J, t.F with
      | some J, some F => match compGF (w.lv (w.hf j).parent).lande w.I J F with
        | Except.error e => (w.bare, Except.error e)
        | Except.ok g => _
      | _, _ => (w.bare, Except.error PyErr.TypeError)) = _
  rcases (w.hf j).term.makeCopy .none (.num m) with e | t
  · rfl
  · simp only
    rcases t.J with _ | J
    · rfl
    rcases t.F with _ | F
    · rfl
    simp only
    rcases compGF (w.lv (w.hf j).parent).lande w.I J F with e | g <;> rfl

theorem popZs_unnamed (j : Nat) (l : List ℚ) (w : World) : Unnamed w (popZs j l) := by
  induction l generalizing w with
  | nil => exact .pure w ()
  | cons f fs ih =>
    unfold popZs
    exact Unnamed.bind (popZ1_unnamed j f w) fun _ w1 _ => ih w1

theorem lazyZ_unnamed (j : Nat) (w : World) : Unnamed w (lazyZ j) := by
  unfold Unnamed lazyZ
  show (if (w.hf j).subs.length = 0 then match (w.hf j).term.F with
    | some F => popZs j (zMs F) w.bare
    | none => (w.bare, Except.error PyErr.TypeError)
    else (w.bare, Except.ok ())) = _
  split
  · cases (w.hf j).term.F with
    | none => rfl
    | some F => exact popZs_unnamed j _ w
  · rfl

theorem hfItem_unnamed (j : Nat) (key : Str) (w : World) : Unnamed w (hfItem j key) := by
  unfold hfItem
  refine Unnamed.bind (lazyZ_unnamed j w) fun _ w1 _ => Unnamed.get ?_
  show (if w1.I = 0 ∧ isIn mJtxt key = true then _ else _ : PyM Nat) _ = _
  split_ifs <;> rfl

theorem lvItem_unnamed (i : Nat) (key : Str) (w : World) : Unnamed w (lvItem i key) := by
  unfold lvItem
  refine Unnamed.bind (lazyHF_unnamed i w) fun _ w1 _ => Unnamed.get ?_
  show (if w1.I = 0 ∧ isIn mJtxt key = true then _ else _ : PyM Ref) _ = _
  split_ifs
  · exact Unnamed.bind (Unnamed.const w1 ((w1.lv i).subs.getE (Term.fEq ++ jFrac (w1.lv i).term)))
      (fun j w2 _ => Unnamed.bind (hfItem_unnamed j _ w2) fun k w3 _ => Unnamed.pure w3 (Ref.zee k))
  · exact Unnamed.bind (Unnamed.const w1 ((w1.lv i).subs.getE key)) (fun j w2 _ => Unnamed.pure w2 (Ref.hyp j))

theorem refItem_unnamed (r : Ref) (key : Str) (w : World) : Unnamed w (refItem r key) := by
  unfold refItem
  cases r with
  | fine i => exact lvItem_unnamed i key w
  | hyp j => exact Unnamed.bind (hfItem_unnamed j key w) fun k w1 _ => Unnamed.pure w1 (Ref.zee k)
  | zee k => exact Unnamed.raise w _

theorem levelsGet_unnamed (key : Str) (w : World) (h : w.lalias.get? key = none) : Unnamed w (levelsGet key) := by
  unfold levelsGet
  refine Unnamed.get ?_
  rw [h]
  show (if isIn Term.mfEq key = true then _ else _ : PyM Ref) w.bare = _
  simp only
  split_ifs
  · rcases rsplit spc 2 key with _ | ⟨x, _ | ⟨y, _ | ⟨z, _ | ⟨u, l⟩⟩⟩⟩
    · rfl
    · rfl
    · rfl
    · exact Unnamed.bind (Unnamed.const w (w.g.levelAttrs.getE x)) (fun i w1 _ => Unnamed.bind (lvItem_unnamed i y w1) fun r w2 _ =>
        refItem_unnamed r z w2)
    · rfl
  · rcases rsplit spcMJ 1 key with _ | ⟨x, _ | ⟨y, _ | ⟨z, l⟩⟩⟩
    · rfl
    · rfl
    · exact Unnamed.bind (Unnamed.const w (w.g.levelAttrs.getE x)) (fun i w1 _ => Unnamed.bind (lvItem_unnamed i _ w1) fun r w2 _ =>
        refItem_unnamed r _ w2)
    · rfl
  · rcases rsplit spc 1 key with _ | ⟨x, _ | ⟨y, _ | ⟨z, l⟩⟩⟩
    · rfl
    · rfl
    · exact Unnamed.bind (Unnamed.const w (w.g.levelAttrs.getE x)) (fun i w1 _ => lvItem_unnamed i y w1)
    · rfl
  · exact Unnamed.bind (Unnamed.const w (w.g.levelAttrs.getE key)) (fun i w1 _ => Unnamed.pure w1 (Ref.fine i))

theorem rsplit1_prefix {pat s a b : Str} (h : rsplit1 pat s = some (a, b)) : a <+: s := by
  induction s generalizing a b with
  | nil =>
    unfold rsplit1 at h
    split_ifs at h
    cases h
    exact List.nil_prefix
  | cons x xs ih =>
    unfold rsplit1 at h
    rcases hr : rsplit1 pat xs with _ | ⟨a', b'⟩
    · rw [hr] at h
      simp only at h
      split_ifs at h
      cases h
      exact List.nil_prefix
    · rw [hr] at h
      cases h
      exact List.cons_prefix_cons.mpr ⟨rfl, ih hr⟩

theorem rsplit_prefix {pat : Str} (n : Nat) {s m : Str} {l : List Str} (h : rsplit pat n s = m :: l) : m <+: s := by
  induction n generalizing s m l with
  | zero => cases h; exact List.prefix_rfl
  | succ n ih =>
    unfold rsplit at h
    rcases hr : rsplit1 pat s with _ | ⟨a, b⟩
    · rw [hr] at h; cases h; exact List.prefix_rfl
    · rw [hr] at h
      simp only at h
      rcases hq : rsplit pat n a with _ | ⟨m', l'⟩
      · cases n with
        | zero => cases hq
        | succ n =>
          unfold rsplit at hq
          cases hv : rsplit1 pat a with
          | none => rw [hv] at hq; cases hq
          | some v => rw [hv] at hq; exact absurd hq (List.append_ne_nil_of_right_ne_nil _ (by simp))
      · rw [hq] at h
        cases h
        exact (ih hq).trans (rsplit1_prefix hr)

/-- A text that begins with the name of no level is not found. -/
theorem levelsGet_unknown (key : Str) (w : World) (h : w.lalias.get? key = none) (hn : ∀ n ∈ w.levelNames, ¬n <+: key) : (levelsGet key w).1 = w := by
  have hE : ∀ x, x <+: key → w.g.levelAttrs.getE x = .error .KeyError := by
    intro x hx
    rw [Dict.getE_err]
    rcases hg : w.g.levelAttrs.get? x with _ | i
    · rfl
    · exact absurd hx (hn x ((Dict.get?_isSome _ _).mp ⟨i, hg⟩))
  have hL : ∀ {α} x (f : Nat → PyM α), x <+: key → ((PyM.lift (w.g.levelAttrs.getE x) >>= f) w).1 = w := by
    intro α x f hx
    rw [hE x hx]
    rfl
  unfold levelsGet
  show ((match w.lalias.get? key with
    | some r => (Pure.pure r : PyM Ref)
    | none => _) w).1 = w
  rw [h]
  simp only
  split_ifs
  · rcases hs : rsplit spc 2 key with _ | ⟨x, _ | ⟨y, _ | ⟨z, _ | ⟨u, l⟩⟩⟩⟩
    · rfl
    · rfl
    · rfl
    · exact hL x _ (rsplit_prefix 2 hs)
    · rfl
  · rcases hs : rsplit spcMJ 1 key with _ | ⟨x, _ | ⟨y, _ | ⟨z, l⟩⟩⟩
    · rfl
    · rfl
    · exact hL x _ (rsplit_prefix 1 hs)
    · rfl
  · rcases hs : rsplit spc 1 key with _ | ⟨x, _ | ⟨y, _ | ⟨z, l⟩⟩⟩
    · rfl
    · rfl
    · exact hL x _ (rsplit_prefix 1 hs)
    · rfl
  · exact hL key _ List.prefix_rfl

/-! ## Containers -/

theorem setAlias_bare (r : Ref) (al : Str) (w : World) : (setAlias r al w).1.bare = w.bare := by
  have h : ∀ i, ({ w.lv i with ali := some al } : ELevel).bare = (w.lv i).bare := fun i => rfl
  unfold setAlias
  cases r with
  | fine i =>
    have e : (w.setLv i { w.lv i with ali := some al }).bare = w.bare := by
      rw [← bare_setLv, h]
      show ({ w.bare with lv := upd (fun k => (w.lv k).bare) i (w.lv i).bare } : World) = _
      have : upd (fun k => (w.lv k).bare) i (w.lv i).bare = fun k => (w.lv k).bare := by
        funext k
        unfold upd
        split
        · rename_i hk; rw [hk]
        · rfl
      rw [this]
      rfl
    simp only
    split
    · exact e
    · exact e
  | hyp j => rfl
  | zee k => rfl

theorem regAlias_bare (i : Nat) (w : World) : (regAlias i w).1.bare = w.bare ∧ (regAlias i w).2 = .ok () := by
  unfold regAlias
  cases (w.lv i).ali <;> exact ⟨rfl, rfl⟩

theorem addLevel_unnamed (i : Nat) (p : Bool) (ali : Option Str) (w : World) :
    World.addLevel i p none w.bare = ((World.addLevel i p ali w).1.bare, (World.addLevel i p ali w).2) := by
  have e1 : lvAddToAtom i w.bare = ((lvAddToAtom i w).1.bare, .ok ()) := by
    show ({ w.bare with lv := upd (fun k => (w.lv k).bare) i (ELevel.bare { w.lv i with inAtom := true }), g := w.g.addNode (w.lname i) i }, _) = _
    rw [upd_bareE]
    rfl
  set w1 := (lvAddToAtom i w).1 with hw1
  have h1 : lvAddToAtom i w = (w1, .ok ()) := rfl
  have hin : (w1.lv i).inAtom = true := by simp [hw1, lvAddToAtom, PyM.modify]
  obtain ⟨w2, h2, b2⟩ : ∃ w2, setAliasOpt i ali w1 = (w2, .ok ()) ∧ w2.bare = w1.bare := by
    cases ali with
    | none => exact ⟨w1, rfl, rfl⟩
    | some al =>
      refine ⟨(setAlias (.fine i) al w1).1, Prod.ext rfl ?_, setAlias_bare _ _ _⟩
      show (setAlias (.fine i) al w1).2 = _
      unfold setAlias
      have : ((w1.setLv i { w1.lv i with ali := some al }).lv i).inAtom = true := by simpa [setLv] using hin
      simp only [this, if_true]
  obtain ⟨w3, h3, b3⟩ : ∃ w3, regAlias i w2 = (w3, .ok ()) ∧ w3.bare = w2.bare :=
    ⟨_, Prod.ext rfl (regAlias_bare i w2).2, (regAlias_bare i w2).1⟩
  unfold World.addLevel
  rw [PyM.bind_ok h1, PyM.bind_ok h2, PyM.bind_ok h3, PyM.bind_ok e1]
  rw [PyM.bind_ok (show setAliasOpt i none w1.bare = (w1.bare, .ok ()) from rfl), PyM.bind_ok (show regAlias i w1.bare = (w1.bare, .ok ()) from rfl),
    ← b2, ← b3]
  cases p
  · rfl
  · exact populateHF_unnamed i w3

theorem levelsDel_unnamed (key : Str) (w : World) : Unnamed w (levelsDel key) := by
  unfold Unnamed levelsDel
  show (match w.g.removeNode key with
    | Except.ok g => ({ w.bare with g := g }, Except.ok ())
    | Except.error e => (w.bare, Except.error e)) = _
  rcases w.g.removeNode key with e | g <;> rfl

theorem setHLevel_unnamed (j : Nat) (v : ℚ) (w : World) : Unnamed w (setHLevel j v) := by
  unfold Unnamed setHLevel
  show (match w.hHz j with
    | Except.ok cur => (w.bare.setE (w.hf j).parent (w.eHz (w.hf j).parent + (v - cur)), Except.ok ())
    | Except.error e => (w.bare, Except.error e)) = _
  rcases w.hHz j with e | cur
  · rfl
  · simp only
    rw [bare_setE]

theorem setZLevel_unnamed (k : Nat) (v : ℚ) (w : World) : Unnamed w (setZLevel k v) := by
  unfold Unnamed setZLevel
  show (match w.zHz k, w.hHz (w.zl k).parent with
    | Except.ok cur, Except.ok p => setHLevel (w.zl k).parent (p + (v - cur)) w.bare
    | Except.error e, _ => (w.bare, Except.error e)
    | _, Except.error e => (w.bare, Except.error e)) = _
  rcases w.zHz k with e | cur
  · rfl
  · rcases w.hHz (w.zl k).parent with e | p
    · rfl
    · exact setHLevel_unnamed _ _ w

/-! ## Transitions -/

theorem trAddToAtom_unnamed (t : Nat) (w : World) : Unnamed w (trAddToAtom t) := by
  unfold Unnamed trAddToAtom
  simp only
  show (if (w.tr t).subKeys.length = 0 then _ else _) = _
  split_ifs <;> rfl

theorem newTransObj_unnamed (a b : Nat) (ali : Option Str) (w : World) :
    newTransObj a b none w.bare = ((newTransObj a b ali w).1.bare, (newTransObj a b ali w).2) := by
  unfold newTransObj
  simp only
  set x : Trans := ⟨a, b, if w.eHz b > w.eHz a then a else b, if w.eHz b > w.eHz a then b else a, false, none, (false, false, false), none, ali, []⟩
    with hx
  have e : ({ w.bare with ntr := w.ntr + 1, tr := upd (fun k => (w.tr k).bare) w.ntr x.bare } : World) =
      World.bare { w with ntr := w.ntr + 1, tr := upd w.tr w.ntr x } := by
    rw [upd_bareT]
    rfl
  show (if (w.lv a).inAtom = true then
      match trAddToAtom w.ntr ({ w.bare with ntr := w.ntr + 1, tr := upd (fun k => (w.tr k).bare) w.ntr x.bare } : World) with
      | (w'', Except.ok ()) => (w'', Except.ok w.ntr)
      | (w'', Except.error e) => (w'', Except.error e)
    else (({ w.bare with ntr := w.ntr + 1, tr := upd (fun k => (w.tr k).bare) w.ntr x.bare } : World), Except.ok w.ntr)) = _
  rw [e]
  set w' : World := { w with ntr := w.ntr + 1, tr := upd w.tr w.ntr x } with hw'
  split_ifs
  · rw [trAddToAtom_unnamed w.ntr w']
    rcases trAddToAtom w.ntr w' with ⟨w2, e | u⟩ <;> rfl
  · rfl

theorem attrsTail_bare (t : Nat) (w : World) : (attrsTail t w).1.bare = w.bare ∧
    ((attrsTail t w).2 = .ok () ∨ ((w.tr t).ali ≠ none ∧ (w.lv (w.tr t).e1).inAtom = false)) := by
  unfold attrsTail
  rcases h : (w.tr t).ali with _ | s
  · exact ⟨rfl, .inl rfl⟩
  · simp only
    split
    · exact ⟨rfl, .inl rfl⟩
    · rename_i hn
      exact ⟨rfl, .inr ⟨by simp, by simpa using hn⟩⟩

theorem newTransAttrs_unnamed (t : Nat) (f : Option ℚ) (A : AArg) (w : World) :
    (newTransAttrs t f A w.bare).1 = (newTransAttrs t f A w).1.bare ∧
    ((newTransAttrs t f A w.bare).2 = (newTransAttrs t f A w).2 ∨ ((w.tr t).ali ≠ none ∧ (w.lv (w.tr t).e1).inAtom = false)) := by
  by_cases hA : ∀ e, A ≠ .bad e
  · rw [newTransAttrs_eq _ _ _ _ hA, newTransAttrs_eq _ _ _ _ hA]
    have e : w.bare.transAllowed (w.bare.tr t).e1 (w.bare.tr t).e2 = w.transAllowed (w.tr t).e1 (w.tr t).e2 := rfl
    rw [e]
    rcases w.transAllowed (w.tr t).e1 (w.tr t).e2 with e | al
    · exact ⟨rfl, .inl rfl⟩
    · have e2 := bare_setTr w t { w.tr t with built := true, A := A.rate, allowed := al, setFreq := f }
      set w2 := w.setTr t { w.tr t with built := true, A := A.rate, allowed := al, setFreq := f } with hw2
      have e3 : w.bare.setTr t { w.bare.tr t with built := true, A := A.rate, allowed := al, setFreq := f } = w2.bare := e2
      simp only
      rw [e3]
      have e4 : attrsTail t w2.bare = (w2.bare, .ok ()) := rfl
      rw [e4]
      obtain ⟨g1, g2⟩ := attrsTail_bare t w2
      refine ⟨g1.symm, ?_⟩
      rcases g2 with g2 | ⟨g2, g3⟩
      · exact .inl g2.symm
      · right
        simpa [hw2, setTr] using And.intro g2 g3
  · cases A with
    | bad e => exact ⟨rfl, .inl rfl⟩
    | none => exact absurd (fun e h => by cases h) hA
    | hz q => exact absurd (fun e h => by cases h) hA

theorem newTransObj_new (a b : Nat) (ali : Option Str) (w w1 : World) (t : Nat) (h : newTransObj a b ali w = (w1, .ok t)) :
    (w1.tr t).ali = ali ∧ (w1.tr t).e1 = a ∧ w1.lv = w.lv := by
  obtain ⟨g, hg⟩ := newTransObj_def a b ali w
  rw [hg] at h
  injection h with h1 h2
  injection h2 with h2
  subst h1 h2
  simp [newTransHeap]

theorem newTrans_unnamed (a b : Nat) (f : Option ℚ) (A : AArg) (ali : Option Str) (w : World) :
    (World.newTrans a b f A none w.bare).1 = (World.newTrans a b f A ali w).1.bare ∧
    ((World.newTrans a b f A none w.bare).2 = (World.newTrans a b f A ali w).2 ∨ (ali ≠ none ∧ (w.lv a).inAtom = false)) := by
  unfold World.newTrans
  have h0 := newTransObj_unnamed a b ali w
  rcases h1 : newTransObj a b ali w with ⟨w1, e | t⟩
  · rw [h1] at h0
    rw [PyM.bind_err h0, PyM.bind_err h1]
    exact ⟨rfl, .inl rfl⟩
  · rw [h1] at h0
    rw [PyM.bind_ok h0, PyM.bind_ok h1]
    obtain ⟨n1, n2, n3⟩ := newTransObj_new a b ali w w1 t h1
    obtain ⟨g1, g2⟩ := newTransAttrs_unnamed t f A w1
    rw [n1, n2, n3] at g2
    rw [PyM.bind_def, PyM.bind_def]
    rcases h2 : newTransAttrs t f A w1 with ⟨w2, r⟩
    rcases h3 : newTransAttrs t f A w1.bare with ⟨w3, r'⟩
    rw [h2, h3] at g1 g2
    simp only at g1 g2
    subst g1
    rcases g2 with rfl | g2
    · rcases r' with e | u
      · exact ⟨rfl, .inl rfl⟩
      · exact ⟨rfl, .inl rfl⟩
    · refine ⟨?_, .inr g2⟩
      rcases r with e | u <;> rcases r' with e' | u' <;> rfl

/-! ## Enforcement -/

theorem setEdgesL_bare (w : World) (l : List ((Str × Str) × Nat)) : setEdgesL w.bare l = setEdgesL w l := by
  induction l with
  | nil => rfl
  | cons q l ih =>
    obtain ⟨e, t⟩ := q
    unfold setEdgesL
    rw [ih]
    rfl

theorem lowestLoop_bare (w : World) (l : List (Str × Option Nat)) (cur : Option Nat) (n : Option Str) :
    lowestLoop w.bare l cur n = lowestLoop w l cur n := by
  induction l generalizing cur n with
  | nil => rfl
  | cons q l ih =>
    obtain ⟨m, o⟩ := q
    cases cur with
    | none => unfold lowestLoop; exact ih _ _
    | some cu =>
      cases o with
      | none => rfl
      | some i =>
        unfold lowestLoop
        rw [ih, ih]
        rfl

theorem enfEdge_unnamed (u v : Str) (w : World) : Unnamed w (enfEdge u v) := by
  unfold Unnamed enfEdge
  show (match w.g.adj u v with
    | none => (w.bare, Except.error PyErr.KeyError)
    | some t => _) = _
  rcases w.g.adj u v with _ | t
  · rfl
  simp only
  show (match (w.tr t).setFreq with
    | none => (w.bare, Except.error PyErr.AttributeError)
    | some f => _) = _
  rcases (w.tr t).setFreq with _ | f
  · rfl
  simp only
  refine Prod.ext ?_ rfl
  show World.setFixed (World.setFixed (if (w.lv (w.tr t).lower).fixed = true ∧ (w.lv (w.tr t).upper).fixed = true ∧
      f ≠ |w.eHz (w.tr t).lower - w.eHz (w.tr t).upper| then World.bare { w with warned := w.warned + 1 }
    else if (w.lv (w.tr t).upper).fixed = true then w.bare.setE (w.tr t).lower (w.eHz (w.tr t).upper - f)
    else w.bare.setE (w.tr t).upper (w.eHz (w.tr t).lower + f)) (w.tr t).upper true) (w.tr t).lower true = _
  rw [bare_setE, bare_setE]
  split_ifs <;> rw [bare_setFixed, bare_setFixed]

theorem enfEdges_unnamed (l : List (Str × Str)) (w : World) : Unnamed w (enfEdges l) := by
  induction l generalizing w with
  | nil => exact .pure w ()
  | cons q l ih =>
    obtain ⟨u, v⟩ := q
    unfold enfEdges
    exact Unnamed.bind (enfEdge_unnamed u v w) fun _ w1 _ => ih w1

theorem enfComp_unnamed (σ : Ord') (es : List (Str × Str)) (d : List Str) (w : World) : Unnamed w (enfComp σ es d) := by
  unfold Unnamed enfComp
  rw [lowestLoop_bare]
  show (match lowestLoop w (withLevels w.g (σ (.low d) d)) none none with
    | Except.error e => (w.bare, Except.error e)
    | Except.ok none => (w.bare, Except.ok ())
    | Except.ok (some s) => enfEdges (Graph.dfsEdges d (fun n => σ (.nbrs d n) (subNbrs w.g es n)) s) w.bare) = _
  rcases lowestLoop w (withLevels w.g (σ (.low d) d)) none none with e | _ | s
  · rfl
  · rfl
  · exact enfEdges_unnamed _ w

theorem enfComps_unnamed (σ : Ord') (es : List (Str × Str)) (trig : Option (Str × Str)) (ds : List (List Str)) (w : World) :
    Unnamed w (enfComps σ es trig ds) := by
  induction ds generalizing w with
  | nil => exact .pure w ()
  | cons d ds ih =>
    unfold Unnamed enfComps
    show (if triggered w.g es d trig then _ else _) = _
    by_cases h : triggered w.g es d trig = true
    · rw [if_pos h, if_pos h]
      exact Unnamed.bind (enfComp_unnamed σ es d w) (fun _ w1 _ => ih w1)
    · rw [if_neg h, if_neg h]
      exact ih w

theorem enforce_unnamed (σ : Ord') (trig : Option (Str × Str)) (w : World) : Unnamed w (enforce σ trig) := by
  unfold Unnamed enforce
  have : w.bare.setEdges = w.setEdges := setEdgesL_bare w _
  rw [this]
  rcases w.setEdges with e | es
  · rfl
  · exact enfComps_unnamed σ es trig _ w

theorem setFrequency_unnamed (σ : Ord') (t : Nat) (f : ℚ) (w : World) : Unnamed w (setFrequency σ t f) := by
  unfold Unnamed setFrequency
  show (if (w.tr t).built then _ else _) = _
  by_cases hb : (w.tr t).built = true
  · rw [if_pos hb, if_pos hb]
    simp only
    set w1 := if truthy (w.tr t).setFreq = true ∧ (w.lv (w.tr t).upper).fixed = true ∧ (w.lv (w.tr t).lower).fixed = true
      then w.setFixed (w.tr t).upper false else w with hw1
    have e1 : (if truthy (w.bare.tr t).setFreq = true ∧ (w.bare.lv (w.bare.tr t).upper).fixed = true ∧
        (w.bare.lv (w.bare.tr t).lower).fixed = true then w.bare.setFixed (w.bare.tr t).upper false
        else w.bare) = w1.bare := by
      rw [hw1]
      show (if truthy (w.tr t).setFreq = true ∧ (w.lv (w.tr t).upper).fixed = true ∧ (w.lv (w.tr t).lower).fixed = true
        then w.bare.setFixed (w.tr t).upper false else w.bare) = _
      rw [bare_setFixed]
      split_ifs <;> rfl
    rw [e1]
    have e2 : w1.bare.setTr t { w1.bare.tr t with setFreq := some f } = (w1.setTr t { w1.tr t with setFreq := some f }).bare :=
      bare_setTr w1 t { w1.tr t with setFreq := some f }
    rw [e2]
    set w2 := w1.setTr t { w1.tr t with setFreq := some f }
    show (if (w2.lv (w2.tr t).e1).inAtom = true then enforce σ (some _) w2.bare else (w2.bare, Except.error PyErr.AttributeError)) = _
    by_cases h : (w2.lv (w2.tr t).e1).inAtom = true
    · rw [if_pos h, if_pos h]
      exact enforce_unnamed σ _ w2
    · rw [if_neg h, if_neg h]
  · rw [if_neg hb, if_neg hb]

theorem addTransition_unnamed (σ : Ord') (t : Nat) (w : World) : Unnamed w (addTransition σ t) := by
  unfold addTransition
  refine Unnamed.bind (trAddToAtom_unnamed t w) fun _ w1 _ => Unnamed.bind ?_ fun _ w2 _ => ?_
  · unfold Unnamed regTAlias
    show (w1.bare, Except.ok ()) = _
    rcases (w1.tr t).ali with _ | s <;> rfl
  · unfold Unnamed enforceIfSet
    show (if (w2.tr t).built then match (w2.tr t).setFreq with
      | some _ => enforce σ none w2.bare
      | none => (w2.bare, Except.ok ())
      else (w2.bare, Except.error PyErr.AttributeError)) = _
    split
    · rcases (w2.tr t).setFreq with _ | q
      · rfl
      · exact enforce_unnamed σ none w2
    · rfl

/-! ## Programs -/

/-- The call without its alias; assigning an alias is left out. -/
def Op.plain : Op → Option Op
  | .newLevel t E l A B C _ => some (.newLevel t E l A B C none)
  | .addLevel i p _ => some (.addLevel i p none)
  | .setItem _ i => some (.addLevel i false none)
  | .setAlias _ _ => none
  | .newTrans a b f A _ => some (.newTrans a b f A none)
  | op => some op

/-- The program without aliases. -/
def unalias (ops : List Op) : List Op := ops.filterMap Op.plain

/-- Aliases under which a level is looked up do not begin with the name of a level. -/
def AsksPlainly : List Op → World → Prop
  | [], _ => True
  | op :: ops, w => (∀ key, op = .getLevel key → w.lalias.get? key = none ∨ ∀ n ∈ w.levelNames, ¬n <+: key) ∧ AsksPlainly ops (op.run w).1

/-- The call gives the same without aliases: it is not a lookup by alias, and not the construction of a transition with an alias between levels outside the atom. -/
def Op.Indifferent (w : World) : Op → Prop
  | .getLevel key => w.lalias.get? key = none
  | .newTrans a _ _ _ ali => ali = none ∨ (w.lv a).inAtom = true
  | _ => True

theorem op_unnamed (op op' : Op) (w : World) (h : op.plain = some op')
    (hq : ∀ key, op = .getLevel key → w.lalias.get? key = none ∨ ∀ n ∈ w.levelNames, ¬n <+: key) :
    (op'.run w.bare).1 = (op.run w).1.bare ∧ (op.Indifferent w → (op'.run w.bare).2 = (op.run w).2) := by
  have key : ∀ {m : PyM Unit}, Unnamed w m → (m w.bare).1 = (m w).1.bare ∧ (op.Indifferent w → (m w.bare).2 = (m w).2) := by
    intro m hm
    unfold Unnamed at hm
    rw [hm]
    exact ⟨rfl, fun _ => rfl⟩
  cases op with
  | newLevel t E l A B C ali =>
    cases h
    refine ⟨?_, fun _ => rfl⟩
    show ({ w.bare with nlv := w.nlv + 1, lv := upd (fun k => (w.lv k).bare) w.nlv (ELevel.bare ⟨t, E, l, A, B, C, ali, false, false, []⟩) } : World) = _
    rw [upd_bareE]
    rfl
  | addLevel i p ali =>
    cases h
    have := addLevel_unnamed i p ali w
    show (World.addLevel i p none w.bare).1 = (World.addLevel i p ali w).1.bare ∧ (_ → (World.addLevel i p none w.bare).2 = (World.addLevel i p ali w).2)
    rw [this]
    exact ⟨rfl, fun _ => rfl⟩
  | setItem k i =>
    cases h
    have := addLevel_unnamed i false (some k) w
    show (World.addLevel i false none w.bare).1 = (World.addLevel i false (some k) w).1.bare ∧
      (_ → (World.addLevel i false none w.bare).2 = (World.addLevel i false (some k) w).2)
    rw [this]
    exact ⟨rfl, fun _ => rfl⟩
  | delItem k => cases h; exact key (levelsDel_unnamed k w)
  | getLevel k =>
    cases h
    rcases hq k rfl with h1 | h1
    · exact key (Unnamed.void (levelsGet_unnamed k w h1))
    · rcases h2 : w.lalias.get? k with _ | r
      · exact key (Unnamed.void (levelsGet_unnamed k w h2))
      · refine ⟨?_, fun hi => ?_⟩
        · show (Op.void _ w.bare).1 = (Op.void _ w).1.bare
          rw [Op.void_fst, Op.void_fst, levelsGet_unknown k w.bare rfl h1]
          unfold levelsGet
          show _ = (World.bare ((match w.lalias.get? k with
            | some r => (Pure.pure r : PyM Ref)
            | none => _) w).1)
          rw [h2]
          rfl
        · simp [Op.Indifferent, h2] at hi
  | getSub r k => cases h; exact key (Unnamed.void (refItem_unnamed r k w))
  | setAlias r al => cases h
  | setEnergy i v => cases h; exact ⟨bare_setE w i v, fun _ => rfl⟩
  | setHEnergy j v => cases h; exact key (setHLevel_unnamed j v w)
  | setZEnergy k v => cases h; exact key (setZLevel_unnamed k v w)
  | setConsts i l A B C =>
    cases h
    exact ⟨bare_setLv w i { w.lv i with lande := l, hfA := A, hfB := B, hfC := C }, fun _ => rfl⟩
  | setQuad k q => cases h; exact ⟨rfl, fun _ => rfl⟩
  | setB b => cases h; exact ⟨rfl, fun _ => rfl⟩
  | newTrans a b f A ali =>
    cases h
    obtain ⟨g1, g2⟩ := newTrans_unnamed a b f A ali w
    refine ⟨?_, fun hi => ?_⟩
    · show (Op.void _ w.bare).1 = (Op.void _ w).1.bare
      rw [Op.void_fst, Op.void_fst]
      exact g1
    · have g3 : (World.newTrans a b f A none w.bare).2 = (World.newTrans a b f A ali w).2 := by
        rcases g2 with g2 | ⟨g2, g3⟩
        · exact g2
        · rcases hi with hi | hi
          · exact absurd hi g2
          · rw [g3] at hi; cases hi
      show (Op.void _ w.bare).2 = (Op.void _ w).2
      unfold Op.void
      rcases h1 : World.newTrans a b f A none w.bare with ⟨w1, e | u⟩ <;> rcases h2 : World.newTrans a b f A ali w with ⟨w2, e' | u'⟩ <;>
        rw [h1, h2] at g3 <;> simp_all
  | addTransition σ t => cases h; exact key (addTransition_unnamed σ t w)
  | setFrequency σ t f => cases h; exact key (setFrequency_unnamed σ t f w)
  | enforce σ => cases h; exact key (enforce_unnamed σ none w)
  | fillSub t keys => cases h; exact ⟨bare_setTr w t { w.tr t with subKeys := keys }, fun _ => rfl⟩

/-- The full claim: leaving out all aliases leaves out the aliases and nothing else. -/
def C180_full : Prop := ∀ (ops : List Op) (I B : ℚ), runAll (unalias ops) (emptyAtom I B) = (runAll ops (emptyAtom I B)).bare

/-- C180 for any atom and any program that looks up nothing under an alias beginning with the name of a level. -/
theorem C180_world_partial (ops : List Op) (w : World) (h : AsksPlainly ops w) : runAll (unalias ops) w.bare = (runAll ops w).bare := by
  induction ops generalizing w with
  | nil => rfl
  | cons op ops ih =>
    obtain ⟨hq, hr⟩ := h
    have ih := ih _ hr
    unfold unalias at *
    rw [List.filterMap_cons]
    rcases hp : op.plain with _ | op'
    · cases op with
      | setAlias r al =>
        simp only
        show _ = (runAll ops (World.setAlias r al w).1).bare
        rw [← setAlias_bare r al w]
        exact ih
      | _ => cases hp
    · simp only
      show runAll _ (op'.run w.bare).1 = (runAll ops (op.run w).1).bare
      rw [(op_unnamed op op' w hp hq).1]
      exact ih

/-- What that means: energies of levels and sublevels, frequencies and rates of transitions, the names of the levels, what is linked to what and the number of
warnings do not depend on aliases. -/
theorem C180_same_partial (ops : List Op) (I B : ℚ) (h : AsksPlainly ops (emptyAtom I B)) :
    let w := runAll ops (emptyAtom I B)
    let v := runAll (unalias ops) (emptyAtom I B)
    (∀ r, v.refHz r = w.refHz r) ∧ (∀ t, v.freqHz t = w.freqHz t ∧ (v.tr t).A = (w.tr t).A ∧ (v.tr t).setFreq = (w.tr t).setFreq) ∧
    v.levelNames = w.levelNames ∧ v.g = w.g ∧ (∀ i, (v.lv i).subs = (w.lv i).subs) ∧ v.hf = w.hf ∧ v.zl = w.zl ∧ v.warned = w.warned := by
  intro w v
  have : v = w.bare := C180_world_partial ops (emptyAtom I B) h
  rw [this]
  refine ⟨fun r => ?_, fun t => ⟨rfl, rfl, rfl⟩, rfl, rfl, fun _ => rfl, rfl, rfl, rfl⟩
  cases r <;> rfl

/-- C180, results: a call gives the same without aliases, or raises the same, unless it is a lookup by alias or makes a transition with an alias between levels
outside the atom. -/
theorem C180_result (op op' : Op) (w : World) (h : op.plain = some op') (hi : op.Indifferent w) : op'.run w.bare = ((op.run w).1.bare, (op.run w).2) := by
  have hq : ∀ key, op = .getLevel key → w.lalias.get? key = none ∨ ∀ n ∈ w.levelNames, ¬n <+: key := by
    rintro key rfl
    exact .inl hi
  obtain ⟨h1, h2⟩ := op_unnamed op op' w h hq
  exact Prod.ext h1 (h2 hi)

/-- Two levels; the second has the name of a sublevel of the first for an alias, and is looked up under it. -/
def shadowOps : List Op := [.newLevel (demoTerm 'g') 0 2 4 0 0 none, .newLevel (demoTerm 'a') 500 2 8 0 0 none,
  .addLevel 0 false none, .addLevel 1 false (some "g 2S1/2 F=1".toList), .getLevel "g 2S1/2 F=1".toList]

/-- C180 fails: without the alias the lookup finds the sublevel, and computes it. -/
theorem C180_fails : ¬C180_full := by
  intro h
  have := congrArg World.nhf (h shadowOps (1/2) 0)
  revert this
  decide +kernel

/-- A program that gives aliases and uses one. -/
def namedOps : List Op := [.newLevel (demoTerm 'g') 0 2 4 0 0 (some "ground".toList), .newLevel (demoTerm 'a') 500 2 8 0 0 none,
  .addLevel 0 true none, .addLevel 1 false (some "D".toList), .newTrans 0 1 (some 300) .none (some "line".toList), .getLevel "ground".toList,
  .setAlias (.hyp 1) "qubit".toList, .getLevel "qubit".toList, .enforce idOrd]

example : unalias namedOps = [.newLevel (demoTerm 'g') 0 2 4 0 0 none, .newLevel (demoTerm 'a') 500 2 8 0 0 none,
  .addLevel 0 true none, .addLevel 1 false none, .newTrans 0 1 (some 300) .none none, .getLevel "ground".toList, .getLevel "qubit".toList, .enforce idOrd] := rfl

example : AsksPlainly namedOps (emptyAtom (1/2) 0) ∧ (runAll namedOps (emptyAtom (1/2) 0)).eHz 1 = 300 ∧
    (runAll namedOps (emptyAtom (1/2) 0)).lalias.keys = ["ground".toList, "D".toList, "qubit".toList] ∧
    (runAll (unalias namedOps) (emptyAtom (1/2) 0)).eHz 1 = 300 := by
  refine ⟨?_, by decide +kernel, by decide +kernel, by decide +kernel⟩
  unfold namedOps
  simp only [AsksPlainly, reduceCtorEq, false_implies, implies_true, true_and, and_true, Op.getLevel.injEq, forall_eq']
  constructor
  · exact .inr (by decide +kernel)
  · exact .inr (by decide +kernel)

end AtomTk
