import Verif.Props.TransFresh
import Verif.Props.Affine
import Verif.Props.Constants

/-!
# Looking is invisible: C146

Sublevels are made when they are first asked for.  A program in which lookups are put in or left out at any places ends with the same
levels, transitions, names and energies, and every other call of it succeeds or raises as before.
-/

namespace AtomTk
open Util World

/-- Everything about sublevels that is stored. -/
structure SubPart where
  nhf : Nat
  hf : Nat → HLevel
  nzl : Nat
  zl : Nat → ZLvl
  subs : Nat → Dict Str Nat

/-- The atom with other sublevels made. -/
def World.put (w : World) (p : SubPart) : World :=
  { w with nhf := p.nhf, hf := p.hf, nzl := p.nzl, zl := p.zl, lv := fun i => { w.lv i with subs := p.subs i } }

/-- The two atoms differ in the sublevels made so far at most. -/
def Alike (w w' : World) : Prop := ∃ p, w' = w.put p

/-- The part of an atom itself. -/
def World.part (w : World) : SubPart := ⟨w.nhf, w.hf, w.nzl, w.zl, fun i => (w.lv i).subs⟩

theorem put_part (w : World) : w.put w.part = w := rfl
theorem put_put (w : World) (p q : SubPart) : (w.put p).put q = w.put q := rfl

theorem Alike.refl (w : World) : Alike w w := ⟨w.part, rfl⟩
theorem Alike.symm {w w' : World} (h : Alike w w') : Alike w' w := by
  obtain ⟨p, rfl⟩ := h
  exact ⟨w.part, rfl⟩
theorem Alike.trans {a b d : World} (h1 : Alike a b) (h2 : Alike b d) : Alike a d := by
  obtain ⟨p, rfl⟩ := h1
  obtain ⟨q, rfl⟩ := h2
  exact ⟨q, rfl⟩

/-- A lookup makes sublevels at most. -/
theorem World.LFrame.alike {w w' : World} (h : LFrame w w') : Alike w w' := by
  refine ⟨w'.part, ?_⟩
  have hlv : w'.lv = fun i => { w.lv i with subs := (w'.lv i).subs } := by
    funext i
    obtain ⟨s, hs⟩ := h.lv i
    rw [hs]
  obtain ⟨I, B, nlv, lv, nhf, hf, nzl, zl, ntr, tr, g, la, ta, wa⟩ := w'
  obtain ⟨h1, h2, h3, h4, h5, h6, h7, h8, h9, -, -, -, -, -⟩ := h
  simp only at h1 h2 h3 h4 h5 h6 h7 h8 h9 hlv
  unfold World.put World.part
  simp only [World.mk.injEq, true_and]
  exact ⟨h1, h2, h3, hlv, h4, h5, h6, h7, h8, h9⟩

/-- From atoms alike the call leads to atoms alike, with the same result or exception. -/
def Deaf {α : Type} (w : World) (m : PyM α) : Prop := ∀ p, ∃ q, m (w.put p) = ((m w).1.put q, (m w).2)

theorem Deaf.bind {α β : Type} {w : World} {m : PyM α} {f : α → PyM β} (h : Deaf w m)
    (hf : ∀ a w1, m w = (w1, Except.ok a) → Deaf w1 (f a)) : Deaf w (m >>= f) := by
  intro p
  obtain ⟨q, hq⟩ := h p
  rw [PyM.bind_def, PyM.bind_def, hq]
  rcases hm : m w with ⟨w1, e | a⟩
  · exact ⟨q, rfl⟩
  · exact hf a w1 hm q

theorem Deaf.get {β : Type} {w : World} {f : World → PyM β} (h : ∀ p, ∃ q, f (w.put p) (w.put p) = ((f w w).1.put q, (f w w).2)) :
    Deaf w (PyM.get >>= f) := h

theorem Deaf.const {α : Type} (w : World) (r : Py α) : Deaf w (PyM.lift r) := fun p => ⟨p, rfl⟩
theorem Deaf.raise {α : Type} (w : World) (e : PyErr) : Deaf w (PyM.raise e : PyM α) := fun p => ⟨p, rfl⟩
theorem Deaf.pure {α : Type} (w : World) (a : α) : Deaf w (Pure.pure a : PyM α) := fun p => ⟨p, rfl⟩

theorem Deaf.void {α : Type} {w : World} {m : PyM α} (h : Deaf w m) : Deaf w (Op.void m) := by
  intro p
  obtain ⟨q, hq⟩ := h p
  refine ⟨q, ?_⟩
  unfold Op.void
  rw [hq]
  rcases m w with ⟨w1, e | a⟩ <;> rfl

/-! ## Parts of the state -/

theorem put_setLv (w : World) (p : SubPart) (i : Nat) (e : ELevel) :
    (w.put p).setLv i { e with subs := p.subs i } = (w.setLv i e).put p := by
  unfold World.put setLv
  simp only [World.mk.injEq, true_and, and_true]
  funext j
  by_cases h : j = i
  · subst h; simp
  · simp [upd_ne _ _ _ h]

theorem put_setE (w : World) (p : SubPart) (i : Nat) (v : ℚ) : (w.put p).setE i v = (w.setE i v).put p :=
  put_setLv w p i { w.lv i with levelHz := v }

theorem put_setFixed (w : World) (p : SubPart) (i : Nat) (b : Bool) : (w.put p).setFixed i b = (w.setFixed i b).put p :=
  put_setLv w p i { w.lv i with fixed := b }

/-! ## Populating -/

theorem popHF1_deaf (i : Nat) (f : ℚ) (w : World) : Deaf w (popHF1 i f) := by
  intro p
  unfold popHF1
  show ∃ q, (match (w.lv i).term.makeCopy (.num f) .none with
    | Except.error e => (w.put p, Except.error e)
    | Except.ok t => match t.J, t.F with
      | some J, some F => match compGF (w.lv i).lande w.I J F with
        | Except.error e => (w.put p, Except.error e)
        | Except.ok g => ({ w.put p with
            nhf := p.nhf + 1
            hf := upd p.hf p.nhf ⟨t, i, g, []⟩
            lv := upd (w.put p).lv i { w.lv i with subs := (p.subs i).set (fKey f) p.nhf } }, Except.ok ())
      | _, _ => (w.put p, Except.error PyErr.TypeError)) = _
  rcases (w.lv i).term.makeCopy (.num f) .none with e | t
  · exact ⟨p, rfl⟩
  · simp only
    rcases t.J with _ | J
    · exact ⟨p, rfl⟩
    rcases t.F with _ | F
    · exact ⟨p, rfl⟩
    simp only
    rcases compGF (w.lv i).lande w.I J F with e | g
    · exact ⟨p, rfl⟩
    · refine ⟨⟨p.nhf + 1, upd p.hf p.nhf ⟨t, i, g, []⟩, p.nzl, p.zl, upd p.subs i ((p.subs i).set (fKey f) p.nhf)⟩, ?_⟩
      simp only [World.put, Prod.mk.injEq, World.mk.injEq, true_and, and_true]
      funext j
      by_cases h : j = i
      · subst h; simp
      · simp [upd_ne _ _ _ h]

theorem popHFs_deaf (i : Nat) (l : List ℚ) (w : World) : Deaf w (popHFs i l) := by
  induction l generalizing w with
  | nil => exact .pure w ()
  | cons f fs ih =>
    unfold popHFs
    exact Deaf.bind (popHF1_deaf i f w) fun _ w1 _ => ih w1

theorem populateHF_deaf (i : Nat) (w : World) : Deaf w (populateHF i) := by
  intro p
  unfold populateHF
  show ∃ q, (if (w.lv i).inAtom then match (w.lv i).term.J with
    | some J => popHFs i (hfFs w.I J) (w.put p)
    | none => (w.put p, Except.error PyErr.TypeError)
    else (w.put p, Except.ok ())) = _
  split
  · cases (w.lv i).term.J with
    | none => exact ⟨p, rfl⟩
    | some J => exact popHFs_deaf i _ w p
  · exact ⟨p, rfl⟩

/-! ## Containers -/

theorem setAlias_deaf (i : Nat) (al : Str) (w : World) : Deaf w (setAlias (.fine i) al) := by
  intro p
  refine ⟨p, ?_⟩
  unfold setAlias
  simp only
  rw [show (w.put p).setLv i { (w.put p).lv i with ali := some al } = (w.setLv i { w.lv i with ali := some al }).put p from
    put_setLv w p i { w.lv i with ali := some al }]
  by_cases h : ((w.setLv i { w.lv i with ali := some al }).lv i).inAtom = true
  · rw [if_pos h, if_pos (show ((World.put _ p).lv i).inAtom = true from h)]
    rfl
  · rw [if_neg h, if_neg (show ¬((World.put _ p).lv i).inAtom = true from h)]

theorem addLevel_deaf (i : Nat) (b : Bool) (ali : Option Str) (w : World) : Deaf w (addLevel i b ali) := by
  unfold addLevel
  refine Deaf.bind ?_ fun _ w1 _ => Deaf.bind ?_ fun _ w2 _ => Deaf.bind ?_ fun _ w3 _ => ?_
  · intro p
    refine ⟨p, ?_⟩
    unfold lvAddToAtom PyM.modify
    refine Prod.ext ?_ rfl
    have := put_setLv w p i { w.lv i with inAtom := true }
    simp only [World.put, setLv, World.mk.injEq, true_and, and_true] at this ⊢
    exact ⟨this, rfl⟩
  · cases ali with
    | none => exact .pure w1 ()
    | some al => exact setAlias_deaf i al w1
  · intro p
    refine ⟨p, ?_⟩
    unfold regAlias
    show (match (w2.lv i).ali with
      | some al => ({ w2.put p with lalias := w2.lalias.set al (.fine i) }, Except.ok ())
      | none => (w2.put p, Except.ok ())) = _
    cases (w2.lv i).ali with
    | none => rfl
    | some al => rfl
  · cases b
    · exact .pure w3 ()
    · exact populateHF_deaf i w3

theorem levelsDel_deaf (key : Str) (w : World) : Deaf w (levelsDel key) := by
  intro p
  refine ⟨p, ?_⟩
  unfold levelsDel
  show (match w.g.removeNode key with
    | Except.ok g => ({ w.put p with g := g }, Except.ok ())
    | Except.error e => (w.put p, Except.error e)) = _
  rcases w.g.removeNode key with e | g <;> rfl

/-! ## Transitions -/

theorem trAddToAtom_deaf (t : Nat) (w : World) (p : SubPart) : trAddToAtom t (w.put p) = ((trAddToAtom t w).1.put p, (trAddToAtom t w).2) := by
  unfold trAddToAtom
  simp only
  by_cases h : (w.tr t).subKeys.length = 0
  · rw [if_pos h, if_pos (show ((World.put w p).tr t).subKeys.length = 0 from h)]
    rfl
  · rw [if_neg h, if_neg (show ¬((World.put w p).tr t).subKeys.length = 0 from h)]
    rfl

theorem newTransObj_deaf (a b : Nat) (ali : Option Str) (w : World) : Deaf w (newTransObj a b ali) := by
  intro p
  refine ⟨p, ?_⟩
  unfold newTransObj
  simp only
  set w' : World := { w with ntr := w.ntr + 1, tr := upd w.tr w.ntr ⟨a, b, if w.eHz b > w.eHz a then a else b,
    if w.eHz b > w.eHz a then b else a, false, none, (false, false, false), none, ali, []⟩ } with hw'
  show (if (w.lv a).inAtom = true then match trAddToAtom w.ntr (w'.put p) with
      | (w'', Except.ok ()) => (w'', Except.ok w.ntr)
      | (w'', Except.error e) => (w'', Except.error e)
    else (w'.put p, Except.ok w.ntr)) = _
  by_cases h : (w.lv a).inAtom = true
  · rw [if_pos h, if_pos h]
    rw [trAddToAtom_deaf w.ntr w']
    rcases trAddToAtom w.ntr w' with ⟨w2, e | u⟩ <;> rfl
  · rw [if_neg h, if_neg h]

theorem attrsTail_deaf (t : Nat) (w : World) : Deaf w (attrsTail t) := by
  intro p
  refine ⟨p, ?_⟩
  unfold attrsTail
  show (match (w.tr t).ali with
    | none => (w.put p, Except.ok ())
    | some s => if (w.lv (w.tr t).e1).inAtom = true then ({ w.put p with talias := w.talias.set s t }, Except.ok ())
      else (w.put p, Except.error PyErr.AttributeError)) = _
  rcases (w.tr t).ali with _ | s
  · rfl
  · by_cases h : (w.lv (w.tr t).e1).inAtom = true
    · simp only [h, if_true]; rfl
    · simp only [h]; rfl

theorem newTransAttrs_deaf (t : Nat) (f : Option ℚ) (A : AArg) (w : World) : Deaf w (newTransAttrs t f A) := by
  by_cases hA : ∀ e, A ≠ .bad e
  · intro p
    rw [newTransAttrs_eq _ _ _ _ hA, newTransAttrs_eq _ _ _ _ hA]
    have e : (w.put p).transAllowed ((w.put p).tr t).e1 ((w.put p).tr t).e2 = w.transAllowed (w.tr t).e1 (w.tr t).e2 := rfl
    rw [e]
    rcases w.transAllowed (w.tr t).e1 (w.tr t).e2 with e | al
    · exact ⟨p, rfl⟩
    · exact attrsTail_deaf t (w.setTr t { w.tr t with built := true, A := A.rate, allowed := al, setFreq := f }) p
  · cases A with
    | bad e => exact fun p => ⟨p, rfl⟩
    | none => exact absurd (fun e h => by cases h) hA
    | hz q => exact absurd (fun e h => by cases h) hA

theorem newTrans_deaf (a b : Nat) (f : Option ℚ) (A : AArg) (ali : Option Str) (w : World) : Deaf w (World.newTrans a b f A ali) := by
  unfold World.newTrans
  exact Deaf.bind (newTransObj_deaf a b ali w) fun t w1 _ => Deaf.bind (newTransAttrs_deaf t f A w1) fun _ w2 _ => .pure w2 _

/-! ## Enforcement -/

theorem setEdgesL_put (w : World) (p : SubPart) (l : List ((Str × Str) × Nat)) : setEdgesL (w.put p) l = setEdgesL w l := by
  induction l with
  | nil => rfl
  | cons q l ih =>
    obtain ⟨e, t⟩ := q
    unfold setEdgesL
    rw [ih]
    rfl

theorem lowestLoop_put (w : World) (p : SubPart) (l : List (Str × Option Nat)) (cur : Option Nat) (n : Option Str) :
    lowestLoop (w.put p) l cur n = lowestLoop w l cur n := by
  induction l generalizing cur n with
  | nil => rfl
  | cons q l ih =>
    obtain ⟨m, o⟩ := q
    cases cur with
    | none => unfold lowestLoop; exact ih _ _
    | some cu =>
      cases o with
      | none => rfl
      | some i =>
        unfold lowestLoop
        rw [ih, ih]
        rfl

theorem enfEdge_deaf (u v : Str) (w : World) : Deaf w (enfEdge u v) := by
  intro p
  refine ⟨p, ?_⟩
  unfold enfEdge
  show (match w.g.adj u v with
    | none => (w.put p, Except.error PyErr.KeyError)
    | some t => _) = _
  rcases w.g.adj u v with _ | t
  · rfl
  simp only
  show (match (w.tr t).setFreq with
    | none => (w.put p, Except.error PyErr.AttributeError)
    | some f => _) = _
  rcases (w.tr t).setFreq with _ | f
  · rfl
  simp only
  refine Prod.ext ?_ rfl
  simp only
  show World.setFixed (World.setFixed _ (w.tr t).upper true) (w.tr t).lower true = _
  rw [← put_setFixed, ← put_setFixed]
  congr 2
  show (if (w.lv (w.tr t).lower).fixed = true ∧ (w.lv (w.tr t).upper).fixed = true ∧
      f ≠ |w.eHz (w.tr t).lower - w.eHz (w.tr t).upper| then { w.put p with warned := w.warned + 1 }
    else if (w.lv (w.tr t).upper).fixed = true then (w.put p).setE (w.tr t).lower (w.eHz (w.tr t).upper - f)
    else (w.put p).setE (w.tr t).upper (w.eHz (w.tr t).lower + f)) = _
  split_ifs
  · rfl
  · rw [put_setE]
  · rw [put_setE]

theorem enfEdges_deaf (l : List (Str × Str)) (w : World) : Deaf w (enfEdges l) := by
  induction l generalizing w with
  | nil => exact .pure w ()
  | cons q l ih =>
    obtain ⟨u, v⟩ := q
    unfold enfEdges
    exact Deaf.bind (enfEdge_deaf u v w) fun _ w1 _ => ih w1

theorem enfComp_deaf (σ : Ord') (es : List (Str × Str)) (d : List Str) (w : World) : Deaf w (enfComp σ es d) := by
  intro p
  unfold enfComp
  rw [lowestLoop_put]
  show ∃ q, (match lowestLoop w (withLevels w.g (σ (.low d) d)) none none with
    | Except.error e => (w.put p, Except.error e)
    | Except.ok none => (w.put p, Except.ok ())
    | Except.ok (some s) => enfEdges (Graph.dfsEdges d (fun n => σ (.nbrs d n) (subNbrs w.g es n)) s) (w.put p)) = _
  rcases lowestLoop w (withLevels w.g (σ (.low d) d)) none none with e | _ | s
  · exact ⟨p, rfl⟩
  · exact ⟨p, rfl⟩
  · exact enfEdges_deaf _ w p

theorem enfComps_deaf (σ : Ord') (es : List (Str × Str)) (trig : Option (Str × Str)) (ds : List (List Str)) (w : World) :
    Deaf w (enfComps σ es trig ds) := by
  induction ds generalizing w with
  | nil => exact .pure w ()
  | cons d ds ih =>
    intro p
    unfold enfComps
    show ∃ q, (if triggered w.g es d trig then _ else _) = _
    by_cases h : triggered w.g es d trig = true
    · rw [if_pos h, if_pos h]
      exact Deaf.bind (enfComp_deaf σ es d w) (fun _ w1 _ => ih w1) p
    · rw [if_neg h, if_neg h]
      exact ih w p

theorem enforce_deaf (σ : Ord') (trig : Option (Str × Str)) (w : World) : Deaf w (enforce σ trig) := by
  intro p
  unfold enforce
  have : (w.put p).setEdges = w.setEdges := setEdgesL_put w p _
  rw [this]
  rcases w.setEdges with e | es
  · exact ⟨p, rfl⟩
  · exact enfComps_deaf σ es trig _ w p

theorem setFrequency_deaf (σ : Ord') (t : Nat) (f : ℚ) (w : World) : Deaf w (setFrequency σ t f) := by
  intro p
  unfold setFrequency
  show ∃ q, (if (w.tr t).built then _ else _) = _
  by_cases hb : (w.tr t).built = true
  · rw [if_pos hb, if_pos hb]
    simp only
    set w1 := if truthy (w.tr t).setFreq = true ∧ (w.lv (w.tr t).upper).fixed = true ∧ (w.lv (w.tr t).lower).fixed = true
      then w.setFixed (w.tr t).upper false else w with hw1
    have e1 : (if truthy ((w.put p).tr t).setFreq = true ∧ ((w.put p).lv ((w.put p).tr t).upper).fixed = true ∧
        ((w.put p).lv ((w.put p).tr t).lower).fixed = true then (w.put p).setFixed ((w.put p).tr t).upper false else w.put p) =
        w1.put p := by
      rw [hw1]
      show (if truthy (w.tr t).setFreq = true ∧ (w.lv (w.tr t).upper).fixed = true ∧ (w.lv (w.tr t).lower).fixed = true
        then (w.put p).setFixed (w.tr t).upper false else w.put p) = _
      split_ifs
      · rw [put_setFixed]
      · rfl
    rw [e1]
    show ∃ q, (if ((w1.setTr t { w1.tr t with setFreq := some f }).lv ((w1.setTr t { w1.tr t with setFreq := some f }).tr t).e1).inAtom = true
      then enforce σ (some _) ((w1.setTr t { w1.tr t with setFreq := some f }).put p)
      else ((w1.setTr t { w1.tr t with setFreq := some f }).put p, Except.error PyErr.AttributeError)) = _
    set w2 := w1.setTr t { w1.tr t with setFreq := some f }
    by_cases h : (w2.lv (w2.tr t).e1).inAtom = true
    · rw [if_pos h, if_pos h]
      exact enforce_deaf σ _ w2 p
    · rw [if_neg h, if_neg h]
      exact ⟨p, rfl⟩
  · rw [if_neg hb, if_neg hb]
    exact ⟨p, rfl⟩

theorem addTransition_deaf (σ : Ord') (t : Nat) (w : World) : Deaf w (addTransition σ t) := by
  unfold addTransition
  refine Deaf.bind (fun p => ⟨p, trAddToAtom_deaf t w p⟩) fun _ w1 _ => Deaf.bind ?_ fun _ w2 _ => ?_
  · intro p
    refine ⟨p, ?_⟩
    unfold regTAlias
    show (match (w1.tr t).ali with
      | some s => ({ w1.put p with talias := w1.talias.set s t }, Except.ok ())
      | none => (w1.put p, Except.ok ())) = _
    rcases (w1.tr t).ali with _ | s <;> rfl
  · intro p
    unfold enforceIfSet
    show ∃ q, (if (w2.tr t).built then match (w2.tr t).setFreq with
      | some _ => enforce σ none (w2.put p)
      | none => (w2.put p, Except.ok ())
      else (w2.put p, Except.error PyErr.AttributeError)) = _
    split
    · rcases (w2.tr t).setFreq with _ | q
      · exact ⟨p, rfl⟩
      · exact enforce_deaf σ none w2 p
    · exact ⟨p, rfl⟩

/-! ## Programs -/

/-- The call acts on levels, transitions or the atom, not on sublevels. -/
def Op.Fine : Op → Prop
  | .newLevel .. | .addLevel .. | .setItem .. | .delItem .. | .setAlias (.fine _) _ | .setEnergy .. | .setConsts .. | .setB .. |
    .newTrans .. | .addTransition .. | .setFrequency .. | .enforce .. | .fillSub .. => True
  | _ => False

theorem op_deaf {op : Op} (h : op.Fine) (w : World) : Deaf w op.run := by
  cases op with
  | newLevel t E l A B C ali =>
    refine Deaf.void (m := World.newLevel t E l A B C ali) fun p => ⟨⟨p.nhf, p.hf, p.nzl, p.zl, upd p.subs w.nlv []⟩, ?_⟩
    unfold World.newLevel
    simp only [World.put, Prod.mk.injEq, World.mk.injEq, true_and, and_true]
    funext j
    by_cases h : j = w.nlv
    · subst h; simp
    · simp [upd_ne _ _ _ h]
  | addLevel i p ali => exact addLevel_deaf i p ali w
  | setItem key i => exact addLevel_deaf i false (some key) w
  | delItem key => exact levelsDel_deaf key w
  | getLevel key => exact h.elim
  | getSub r key => exact h.elim
  | setAlias r al =>
    cases r with
    | fine i => exact setAlias_deaf i al w
    | hyp j => exact h.elim
    | zee z => exact h.elim
  | setEnergy i v => exact fun p => ⟨p, Prod.ext (put_setE w p i v) rfl⟩
  | setHEnergy j v => exact h.elim
  | setZEnergy z v => exact h.elim
  | setConsts i l A B C =>
    exact fun p => ⟨p, Prod.ext (put_setLv w p i { w.lv i with lande := l, hfA := A, hfB := B, hfC := C }) rfl⟩
  | setQuad z q => exact h.elim
  | setB b => exact fun p => ⟨p, rfl⟩
  | newTrans a b f A ali => exact (newTrans_deaf a b f A ali w).void
  | addTransition σ t => exact addTransition_deaf σ t w
  | setFrequency σ t f => exact setFrequency_deaf σ t f w
  | enforce σ => exact enforce_deaf σ none w
  | fillSub t keys => exact fun p => ⟨p, rfl⟩

/-- One step of a program: a call, or any expression that looks something up. -/
inductive Act
  | call (op : Op)
  | look (f : World → World)

/-- The calls alone. -/
def Act.calls : List Act → List Op
  | [] => []
  | .call op :: l => op :: Act.calls l
  | .look _ :: l => Act.calls l

/-- The program: final state, and the result or exception of every call. -/
def Act.run : List Act → World → World × List (Py Unit)
  | [], w => (w, [])
  | .call op :: l, w => ((Act.run l (op.run w).1).1, (op.run w).2 :: (Act.run l (op.run w).1).2)
  | .look f :: l, w => Act.run l (f w)

/-- Calls are not about sublevels, and what is called looking does nothing but make sublevels that were not made before. -/
def Act.Ok : Act → Prop
  | .call op => op.Fine
  | .look f => ∀ w, LFrame w (f w)

theorem deaf_alike {α : Type} {w w' : World} {m : PyM α} (h : Deaf w m) (ha : Alike w w') : Alike (m w).1 (m w').1 ∧ (m w').2 = (m w).2 := by
  obtain ⟨p, rfl⟩ := ha
  obtain ⟨q, hq⟩ := h p
  rw [hq]
  exact ⟨⟨q, rfl⟩, rfl⟩

/-- C146: leaving out every lookup of a program changes neither the result or exception of any call, nor what the atom is at the end, up to
which sublevels have been made. -/
theorem C146_invisible (prog : List Act) (h : ∀ a ∈ prog, a.Ok) (w : World) :
    Alike (runAll (Act.calls prog) w) (Act.run prog w).1 ∧ (Act.run prog w).2 = outcomes (Act.calls prog) w := by
  suffices H : ∀ w w', Alike w w' → Alike (runAll (Act.calls prog) w) (Act.run prog w').1 ∧
      (Act.run prog w').2 = outcomes (Act.calls prog) w from H w w (.refl w)
  induction prog with
  | nil => exact fun w w' ha => ⟨ha, rfl⟩
  | cons a l ih =>
    intro w w' ha
    have hl := ih fun b hb => h b (List.mem_cons_of_mem _ hb)
    have ho := h a List.mem_cons_self
    cases a with
    | call op =>
      obtain ⟨h1, h2⟩ := deaf_alike (op_deaf ho w) ha
      obtain ⟨h3, h4⟩ := hl _ _ h1
      refine ⟨h3, ?_⟩
      show (op.run w').2 :: _ = (op.run w).2 :: _
      rw [h2, h4]
    | look f => exact hl _ _ (ha.trans (ho w').alike)

/-- C146: of two atoms alike, levels have the same names, energies and constants, transitions the same frequencies, set frequencies, types
and rates; names, ranks and transitions are listed and found alike. -/
theorem C146_same {w w' : World} (h : Alike w w') :
    w'.levelNames = w.levelNames ∧ (∀ n, levelsGetInt n w' = levelsGetInt n w) ∧ (∀ i, w'.lname i = w.lname i ∧ w'.eHz i = w.eHz i ∧
      consts (w'.lv i) = consts (w.lv i)) ∧ w'.tr = w.tr ∧ (∀ t, w'.freqHz t = w.freqHz t) ∧ w'.g = w.g ∧ w'.lalias = w.lalias ∧
    w'.talias = w.talias ∧ w'.warned = w.warned ∧ ∀ i J F, w'.hypE i J F = w.hypE i J F := by
  obtain ⟨p, rfl⟩ := h
  exact ⟨rfl, fun _ => rfl, fun _ => ⟨rfl, rfl, rfl⟩, rfl, fun _ => rfl, rfl, rfl, rfl, rfl, fun _ _ _ => rfl⟩

/-- C146 for hyperfine levels: asked for by name after the program and after the program without its lookups, they have the same energy.
(The same is not so for Zeeman levels after an assignment of the Landé factor, see C25.) -/
theorem C146_hyperfine {w w' : World} (hr : Reachable w) (hr' : Reachable w') (ha : Alike w w') {i : Nat} {J F : ℚ} (hI : IsSpin w.I)
    (hf : Findable w i J) (hF : F ∈ hfFs w.I J) (hal : w.lalias.get? (hypText (w.lname i) F) = none) :
    ∃ v v' j j' e, levelsGet (hypText (w.lname i) F) w = (v, Except.ok (.hyp j)) ∧ levelsGet (hypText (w.lname i) F) w' = (v', Except.ok (.hyp j')) ∧
      v.hHz j = Except.ok e ∧ v'.hHz j' = Except.ok e := by
  obtain ⟨p, rfl⟩ := ha
  obtain ⟨v, j, g1, -, -, e1⟩ := hyp_found hr hI hf hF hal
  have hf' : Findable (w.put p) i J := ⟨hf.reg, hf.clean, hf.hJ, hf.spin, hf.hF, hf.hM⟩
  obtain ⟨v', j', g2, -, -, e2⟩ := hyp_found hr' (show IsSpin (w.put p).I from hI) hf' hF hal
  exact ⟨v, v', j, j', _, g1, g2, e1 v (.refl _), e2 v' (.refl _)⟩

/-- Lookups by name, by item, and of transitions are lookups in this sense. -/
theorem C146_lookups (key key' : Str) (r : Ref) :
    Act.Ok (.look fun w => (levelsGet key w).1) ∧ Act.Ok (.look fun w => (refItem r key w).1) ∧
    Act.Ok (.look fun w => (transGet key key' w).1) ∧ Act.Ok (.look fun w => (linkedLevels key w).1) := by
  refine ⟨levelsGet_frame key, refItem_frame r key, fun w => ?_, fun w => ?_⟩
  · suffices h : PyM.Pres LFrame (transGet key key') from h w
    unfold transGet
    refine PyM.Pres.bind LFrame.trans (levelsGet_frame key) fun ra => PyM.Pres.bind LFrame.trans (levelsGet_frame key') fun rb =>
      PyM.Pres.bind LFrame.trans get_frame fun w1 => PyM.Pres.bind LFrame.trans (lift_frame _) fun ea =>
      PyM.Pres.bind LFrame.trans (lift_frame _) fun eb => ?_
    split_ifs
    · exact lift_frame _
    · exact lift_frame _
    · exact raise_frame _
  · suffices h : PyM.Pres LFrame (linkedLevels key) from h w
    unfold linkedLevels
    refine PyM.Pres.bind LFrame.trans (levelsGet_frame key) fun r => PyM.Pres.bind LFrame.trans get_frame fun w1 => ?_
    split
    · split
      · exact pure_frame _
      · exact raise_frame _
    · exact raise_frame _

/-- A program with lookups of hyperfine levels in the middle: the sublevels are made, and the constants assigned later are those used. -/
def lookingProg : List Act :=
  [.call (.newLevel (demoTerm 'g') 0 2 400 0 0 none), .call (.addLevel 0 false none), .look (fun w => (levelsGet "g 2S1/2 F=1".toList w).1),
   .call (.setConsts 0 2 800 0 0), .look (fun w => (levelsGet "g 2S1/2 F=0 mF=0".toList w).1), .call (.delItem ['x'])]

example : (∀ a ∈ lookingProg, a.Ok) ∧ (Act.run lookingProg (emptyAtom (1/2) 0)).1.nzl = 1 ∧
    (runAll (Act.calls lookingProg) (emptyAtom (1/2) 0)).nhf = 0 ∧
    (Act.run lookingProg (emptyAtom (1/2) 0)).2 = [Except.ok (), Except.ok (), Except.ok (), Except.error .NetworkXError] := by
  refine ⟨?_, by decide +kernel, by decide +kernel, by decide +kernel⟩
  intro a ha
  simp only [lookingProg, List.mem_cons, List.not_mem_nil, or_false] at ha
  rcases ha with rfl | rfl | rfl | rfl | rfl | rfl
  · trivial
  · trivial
  · exact levelsGet_frame _
  · trivial
  · exact levelsGet_frame _
  · trivial

end AtomTk
