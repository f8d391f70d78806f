import Verif.Props.AliasFree

/-!
# C181: hyperfine constants and rates act on nothing but the sublevels and lines
-/

namespace AtomTk
open Util World

/-- The level without hyperfine constants. -/
def ELevel.mute (e : ELevel) : ELevel := { e with hfA := 0, hfB := 0, hfC := 0 }
/-- The transition without rate. -/
def Trans.mute (x : Trans) : Trans := { x with A := none }
/-- The atom without hyperfine constants and rates. -/
def World.mute (w : World) : World := { w with lv := fun i => (w.lv i).mute, tr := fun t => (w.tr t).mute }

/-- Without hyperfine constants and rates the call does the same and gives the same. -/
def Mute {α : Type} (w : World) (m : PyM α) : Prop := m w.mute = ((m w).1.mute, (m w).2)

theorem Mute.bind {α β : Type} {w : World} {m : PyM α} {f : α → PyM β} (h : Mute w m)
    (hf : ∀ a w1, m w = (w1, Except.ok a) → Mute w1 (f a)) : Mute w (m >>= f) := by
  unfold Mute at *
  rw [PyM.bind_def, PyM.bind_def, h]
  rcases hm : m w with ⟨w1, e | a⟩
  · rfl
  · exact hf a w1 hm

theorem Mute.get {β : Type} {w : World} {f : World → PyM β} (h : f w.mute w.mute = ((f w w).1.mute, (f w w).2)) : Mute w (PyM.get >>= f) := h
theorem Mute.const {α : Type} (w : World) (r : Py α) : Mute w (PyM.lift r) := rfl
theorem Mute.raise {α : Type} (w : World) (e : PyErr) : Mute w (PyM.raise e : PyM α) := rfl
theorem Mute.pure {α : Type} (w : World) (a : α) : Mute w (Pure.pure a : PyM α) := rfl

theorem Mute.void {α : Type} {w : World} {m : PyM α} (h : Mute w m) : Mute w (Op.void m) := by
  unfold Mute Op.void at *
  rw [h]
  rcases m w with ⟨w1, e | a⟩ <;> rfl

theorem upd_muteL (f : Nat → ELevel) (i : Nat) (e : ELevel) : upd (fun k => (f k).mute) i e.mute = fun k => (upd f i e k).mute := by
  funext k
  unfold upd
  split <;> rfl

theorem upd_muteT (f : Nat → Trans) (i : Nat) (e : Trans) : upd (fun k => (f k).mute) i e.mute = fun k => (upd f i e k).mute := by
  funext k
  unfold upd
  split <;> rfl

theorem mute_setLv (w : World) (i : Nat) (e : ELevel) : w.mute.setLv i e.mute = (w.setLv i e).mute := by
  have := upd_muteL w.lv i e
  show ({ w.mute with lv := upd (fun k => (w.lv k).mute) i e.mute } : World) = _
  rw [this]
  rfl

theorem mute_setTr (w : World) (i : Nat) (e : Trans) : w.mute.setTr i e.mute = (w.setTr i e).mute := by
  have := upd_muteT w.tr i e
  show ({ w.mute with tr := upd (fun k => (w.tr k).mute) i e.mute } : World) = _
  rw [this]
  rfl

theorem mute_setE (w : World) (i : Nat) (v : ℚ) : w.mute.setE i v = (w.setE i v).mute := mute_setLv w i { w.lv i with levelHz := v }
theorem mute_setFixed (w : World) (i : Nat) (b : Bool) : w.mute.setFixed i b = (w.setFixed i b).mute := mute_setLv w i { w.lv i with fixed := b }

/-! ## Populating and looking up -/

theorem popHF1_mute (i : Nat) (f : ℚ) (w : World) : Mute w (popHF1 i f) := by
  unfold Mute popHF1
  show (match (w.lv i).term.makeCopy (.num f) .none with
    | Except.error e => (w.mute, Except.error e)
    | Except.ok t => match t.J, t.F with
      | some J, some F => match compGF (w.lv i).lande w.I J F with
        | Except.error e => (w.mute, Except.error e)
        | Except.ok g => ({ w.mute with
            nhf := w.nhf + 1
            hf := upd w.hf w.nhf ⟨t, i, g, []⟩
            lv := upd (fun k => (w.lv k).mute) i (ELevel.mute { w.lv i with subs := (w.lv i).subs.set (fKey f) w.nhf }) }, Except.ok ())
      | _, _ => (w.mute, Except.error PyErr.TypeError)) = _
  rw [upd_muteL]
  rcases (w.lv i).term.makeCopy (.num f) .none with e | t
  · rfl
  · simp only
    rcases t.J with _ | J
    · rfl
    rcases t.F with _ | F
    · rfl
    simp only
    rcases compGF (w.lv i).lande w.I J F with e | g <;> rfl

theorem popHFs_mute (i : Nat) (l : List ℚ) (w : World) : Mute w (popHFs i l) := by
  induction l generalizing w with
  | nil => exact .pure w ()
  | cons f fs ih =>
    unfold popHFs
    exact Mute.bind (popHF1_mute i f w) fun _ w1 _ => ih w1

theorem populateHF_mute (i : Nat) (w : World) : Mute w (populateHF i) := by
  unfold Mute populateHF
  show (if (w.lv i).inAtom then match (w.lv i).term.J with
    | some J => popHFs i (hfFs w.I J) w.mute
    | none => (w.mute, Except.error PyErr.TypeError)
    else (w.mute, Except.ok ())) = _
  split
  · cases (w.lv i).term.J with
    | none => rfl
    | some J => exact popHFs_mute i _ w
  · rfl

theorem lazyHF_mute (i : Nat) (w : World) : Mute w (lazyHF i) := by
  unfold Mute lazyHF
  show (if (w.lv i).subs.length = 0 then
    if (w.lv i).inAtom then populateHF i w.mute else (w.mute, Except.error PyErr.AttributeError)
    else (w.mute, Except.ok ())) = _
  split_ifs
  · exact populateHF_mute i w
  · rfl
  · rfl

theorem popZ1_mute (j : Nat) (m : ℚ) (w : World) : Mute w (popZ1 j m) := by
  unfold Mute popZ1
  show (match (w.hf j).term.makeCopy .none (.num m) with
    | Except.error e => (w.mute, Except.error e)
    | Except.ok t => match t.J, t.F with
      | some J, some F => match compGF (w.lv (w.hf j).parent).lande w.I J F with
        | Except.error e => (w.mute, Except.error e)
        | Except.ok g => _
      | _, _ => (w.mute, Except.error PyErr.TypeError)) = _
  rcases (w.hf j).term.makeCopy .none (.num m) with e | t
  · rfl
  · simp only
    rcases t.J with _ | J
    · rfl
    rcases t.F with _ | F
    · rfl
    simp only
    rcases compGF (w.lv (w.hf j).parent).lande w.I J F with e | g <;> rfl

theorem popZs_mute (j : Nat) (l : List ℚ) (w : World) : Mute w (popZs j l) := by
  induction l generalizing w with
  | nil => exact .pure w ()
  | cons f fs ih =>
    unfold popZs
    exact Mute.bind (popZ1_mute j f w) fun _ w1 _ => ih w1

theorem lazyZ_mute (j : Nat) (w : World) : Mute w (lazyZ j) := by
  unfold Mute lazyZ
  show (if (w.hf j).subs.length = 0 then match (w.hf j).term.F with
    | some F => popZs j (zMs F) w.mute
    | none => (w.mute, Except.error PyErr.TypeError)
    else (w.mute, Except.ok ())) = _
  split
  · cases (w.hf j).term.F with
    | none => rfl
    | some F => exact popZs_mute j _ w
  · rfl

theorem hfItem_mute (j : Nat) (key : Str) (w : World) : Mute w (hfItem j key) := by
  unfold hfItem
  refine Mute.bind (lazyZ_mute j w) fun _ w1 _ => Mute.get ?_
  show (if w1.I = 0 ∧ isIn mJtxt key = true then _ else _ : PyM Nat) _ = _
  split_ifs <;> rfl

theorem lvItem_mute (i : Nat) (key : Str) (w : World) : Mute w (lvItem i key) := by
  unfold lvItem
  refine Mute.bind (lazyHF_mute i w) fun _ w1 _ => Mute.get ?_
  show (if w1.I = 0 ∧ isIn mJtxt key = true then _ else _ : PyM Ref) _ = _
  split_ifs
  · exact Mute.bind (Mute.const w1 ((w1.lv i).subs.getE (Term.fEq ++ jFrac (w1.lv i).term)))
      (fun j w2 _ => Mute.bind (hfItem_mute j _ w2) fun k w3 _ => Mute.pure w3 (Ref.zee k))
  · exact Mute.bind (Mute.const w1 ((w1.lv i).subs.getE key)) (fun j w2 _ => Mute.pure w2 (Ref.hyp j))

theorem refItem_mute (r : Ref) (key : Str) (w : World) : Mute w (refItem r key) := by
  unfold refItem
  cases r with
  | fine i => exact lvItem_mute i key w
  | hyp j => exact Mute.bind (hfItem_mute j key w) fun k w1 _ => Mute.pure w1 (Ref.zee k)
  | zee k => exact Mute.raise w _

theorem levelsGet_mute (key : Str) (w : World) : Mute w (levelsGet key) := by
  unfold levelsGet
  refine Mute.get ?_
  show (match w.lalias.get? key with
    | some r => (Pure.pure r : PyM Ref)
    | none => _) w.mute = _
  rcases w.lalias.get? key with _ | r
  on_goal 2 => rfl
  simp only
  split_ifs
  · rcases rsplit spc 2 key with _ | ⟨x, _ | ⟨y, _ | ⟨z, _ | ⟨u, l⟩⟩⟩⟩
    · rfl
    · rfl
    · rfl
    · exact Mute.bind (Mute.const w (w.g.levelAttrs.getE x)) (fun i w1 _ => Mute.bind (lvItem_mute i y w1) fun r w2 _ =>
        refItem_mute r z w2)
    · rfl
  · rcases rsplit spcMJ 1 key with _ | ⟨x, _ | ⟨y, _ | ⟨z, l⟩⟩⟩
    · rfl
    · rfl
    · exact Mute.bind (Mute.const w (w.g.levelAttrs.getE x)) (fun i w1 _ => Mute.bind (lvItem_mute i _ w1) fun r w2 _ =>
        refItem_mute r _ w2)
    · rfl
  · rcases rsplit spc 1 key with _ | ⟨x, _ | ⟨y, _ | ⟨z, l⟩⟩⟩
    · rfl
    · rfl
    · exact Mute.bind (Mute.const w (w.g.levelAttrs.getE x)) (fun i w1 _ => lvItem_mute i y w1)
    · rfl
  · exact Mute.bind (Mute.const w (w.g.levelAttrs.getE key)) (fun i w1 _ => Mute.pure w1 (Ref.fine i))

/-! ## Containers -/

theorem setAlias_mute (r : Ref) (al : Str) (w : World) : Mute w (setAlias r al) := by
  unfold Mute setAlias
  cases r with
  | fine i =>
    have e : w.mute.setLv i { w.mute.lv i with ali := some al } = (w.setLv i { w.lv i with ali := some al }).mute :=
      mute_setLv w i { w.lv i with ali := some al }
    simp only
    rw [e]
    show (if ((w.setLv i { w.lv i with ali := some al }).lv i).inAtom = true then _ else _) = _
    split_ifs <;> rfl
  | hyp j => rfl
  | zee k => rfl

theorem addLevel_mute (i : Nat) (p : Bool) (ali : Option Str) (w : World) : Mute w (addLevel i p ali) := by
  unfold addLevel
  refine Mute.bind ?_ fun _ w1 _ => Mute.bind ?_ fun _ w2 _ => Mute.bind ?_ fun _ w3 _ => ?_
  · show ({ w.mute with lv := upd (fun k => (w.lv k).mute) i (ELevel.mute { w.lv i with inAtom := true }), g := w.g.addNode (w.lname i) i }, _) = _
    rw [upd_muteL]
    rfl
  · cases ali with
    | none => exact .pure w1 ()
    | some al => exact setAlias_mute (.fine i) al w1
  · unfold Mute regAlias
    show (match (w2.lv i).ali with
      | some al => ({ w2.mute with lalias := w2.lalias.set al (.fine i) }, Except.ok ())
      | none => (w2.mute, Except.ok ())) = _
    cases (w2.lv i).ali with
    | none => rfl
    | some al => rfl
  · cases p
    · exact .pure w3 ()
    · exact populateHF_mute i w3

theorem levelsDel_mute (key : Str) (w : World) : Mute w (levelsDel key) := by
  unfold Mute levelsDel
  show (match w.g.removeNode key with
    | Except.ok g => ({ w.mute with g := g }, Except.ok ())
    | Except.error e => (w.mute, Except.error e)) = _
  rcases w.g.removeNode key with e | g <;> rfl

/-! ## Transitions -/

theorem trAddToAtom_mute (t : Nat) (w : World) : Mute w (trAddToAtom t) := by
  unfold Mute trAddToAtom
  simp only
  show (if (w.tr t).subKeys.length = 0 then _ else _) = _
  split_ifs <;> rfl

theorem newTransObj_mute (a b : Nat) (ali : Option Str) (w : World) :
    Mute w (newTransObj a b ali) := by
  unfold Mute newTransObj
  simp only
  set x : Trans := ⟨a, b, if w.eHz b > w.eHz a then a else b, if w.eHz b > w.eHz a then b else a, false, none, (false, false, false), none, ali, []⟩
    with hx
  have e : ({ w.mute with ntr := w.ntr + 1, tr := upd (fun k => (w.tr k).mute) w.ntr x.mute } : World) =
      World.mute { w with ntr := w.ntr + 1, tr := upd w.tr w.ntr x } := by
    rw [upd_muteT]
    rfl
  show (if (w.lv a).inAtom = true then
      match trAddToAtom w.ntr ({ w.mute with ntr := w.ntr + 1, tr := upd (fun k => (w.tr k).mute) w.ntr x.mute } : World) with
      | (w'', Except.ok ()) => (w'', Except.ok w.ntr)
      | (w'', Except.error e) => (w'', Except.error e)
    else (({ w.mute with ntr := w.ntr + 1, tr := upd (fun k => (w.tr k).mute) w.ntr x.mute } : World), Except.ok w.ntr)) = _
  rw [e]
  set w' : World := { w with ntr := w.ntr + 1, tr := upd w.tr w.ntr x } with hw'
  split_ifs
  · rw [trAddToAtom_mute w.ntr w']
    rcases trAddToAtom w.ntr w' with ⟨w2, e | u⟩ <;> rfl
  · rfl

theorem attrsTail_mute (t : Nat) (w : World) : Mute w (attrsTail t) := by
  unfold Mute attrsTail
  show (match (w.tr t).ali with
    | none => (w.mute, Except.ok ())
    | some s => if (w.lv (w.tr t).e1).inAtom = true then ({ w.mute with talias := w.talias.set s t }, Except.ok ())
      else (w.mute, Except.error PyErr.AttributeError)) = _
  rcases (w.tr t).ali with _ | s
  · rfl
  · simp only
    split_ifs <;> rfl

/-- The rate that is left: none, or something that cannot be converted. -/
def AArg.mute : AArg → AArg
  | .bad e => .bad e
  | _ => .none

theorem newTransAttrs_mute (t : Nat) (f : Option ℚ) (A : AArg) (w : World) :
    newTransAttrs t f (AtomTk.AArg.mute A) w.mute = ((newTransAttrs t f A w).1.mute, (newTransAttrs t f A w).2) := by
  by_cases hA : ∀ e, A ≠ .bad e
  · have hA' : AtomTk.AArg.mute A = .none := by
      cases A with
      | bad e => exact absurd rfl (hA e)
      | none => rfl
      | hz q => rfl
    rw [hA', newTransAttrs_eq _ _ _ _ hA, newTransAttrs_eq _ _ _ _ (fun e h => by cases h)]
    have e : w.mute.transAllowed (w.mute.tr t).e1 (w.mute.tr t).e2 = w.transAllowed (w.tr t).e1 (w.tr t).e2 := rfl
    rw [e]
    rcases w.transAllowed (w.tr t).e1 (w.tr t).e2 with e | al
    · rfl
    · have e2 := mute_setTr w t { w.tr t with built := true, A := A.rate, allowed := al, setFreq := f }
      have e3 : w.mute.setTr t { w.mute.tr t with built := true, A := AArg.none.rate, allowed := al, setFreq := f } =
        (w.setTr t { w.tr t with built := true, A := A.rate, allowed := al, setFreq := f }).mute := e2
      simp only
      rw [e3]
      exact attrsTail_mute t _
  · cases A with
    | bad e => rfl
    | none => exact absurd (fun e h => by cases h) hA
    | hz q => exact absurd (fun e h => by cases h) hA

theorem newTrans_mute (a b : Nat) (f : Option ℚ) (A : AArg) (ali : Option Str) (w : World) :
    World.newTrans a b f (AtomTk.AArg.mute A) ali w.mute = ((World.newTrans a b f A ali w).1.mute, (World.newTrans a b f A ali w).2) := by
  unfold World.newTrans
  have h0 := newTransObj_mute a b ali w
  unfold Mute at h0
  rcases h1 : newTransObj a b ali w with ⟨w1, e | t⟩
  · rw [h1] at h0
    rw [PyM.bind_err h0, PyM.bind_err h1]
  · rw [h1] at h0
    rw [PyM.bind_ok h0, PyM.bind_ok h1, PyM.bind_def, PyM.bind_def, newTransAttrs_mute]
    rcases newTransAttrs t f A w1 with ⟨w2, e | u⟩ <;> rfl

/-! ## Enforcement -/

theorem setEdgesL_mute (w : World) (l : List ((Str × Str) × Nat)) : setEdgesL w.mute l = setEdgesL w l := by
  induction l with
  | nil => rfl
  | cons q l ih =>
    obtain ⟨e, t⟩ := q
    unfold setEdgesL
    rw [ih]
    rfl

theorem lowestLoop_mute (w : World) (l : List (Str × Option Nat)) (cur : Option Nat) (n : Option Str) :
    lowestLoop w.mute l cur n = lowestLoop w l cur n := by
  induction l generalizing cur n with
  | nil => rfl
  | cons q l ih =>
    obtain ⟨m, o⟩ := q
    cases cur with
    | none => unfold lowestLoop; exact ih _ _
    | some cu =>
      cases o with
      | none => rfl
      | some i =>
        unfold lowestLoop
        rw [ih, ih]
        rfl

theorem enfEdge_mute (u v : Str) (w : World) : Mute w (enfEdge u v) := by
  unfold Mute enfEdge
  show (match w.g.adj u v with
    | none => (w.mute, Except.error PyErr.KeyError)
    | some t => _) = _
  rcases w.g.adj u v with _ | t
  · rfl
  simp only
  show (match (w.tr t).setFreq with
    | none => (w.mute, Except.error PyErr.AttributeError)
    | some f => _) = _
  rcases (w.tr t).setFreq with _ | f
  · rfl
  simp only
  refine Prod.ext ?_ rfl
  show World.setFixed (World.setFixed (if (w.lv (w.tr t).lower).fixed = true ∧ (w.lv (w.tr t).upper).fixed = true ∧
      f ≠ |w.eHz (w.tr t).lower - w.eHz (w.tr t).upper| then World.mute { w with warned := w.warned + 1 }
    else if (w.lv (w.tr t).upper).fixed = true then w.mute.setE (w.tr t).lower (w.eHz (w.tr t).upper - f)
    else w.mute.setE (w.tr t).upper (w.eHz (w.tr t).lower + f)) (w.tr t).upper true) (w.tr t).lower true = _
  rw [mute_setE, mute_setE]
  split_ifs <;> rw [mute_setFixed, mute_setFixed]

theorem enfEdges_mute (l : List (Str × Str)) (w : World) : Mute w (enfEdges l) := by
  induction l generalizing w with
  | nil => exact .pure w ()
  | cons q l ih =>
    obtain ⟨u, v⟩ := q
    unfold enfEdges
    exact Mute.bind (enfEdge_mute u v w) fun _ w1 _ => ih w1

theorem enfComp_mute (σ : Ord') (es : List (Str × Str)) (d : List Str) (w : World) : Mute w (enfComp σ es d) := by
  unfold Mute enfComp
  rw [lowestLoop_mute]
  show (match lowestLoop w (withLevels w.g (σ (.low d) d)) none none with
    | Except.error e => (w.mute, Except.error e)
    | Except.ok none => (w.mute, Except.ok ())
    | Except.ok (some s) => enfEdges (Graph.dfsEdges d (fun n => σ (.nbrs d n) (subNbrs w.g es n)) s) w.mute) = _
  rcases lowestLoop w (withLevels w.g (σ (.low d) d)) none none with e | _ | s
  · rfl
  · rfl
  · exact enfEdges_mute _ w

theorem enfComps_mute (σ : Ord') (es : List (Str × Str)) (trig : Option (Str × Str)) (ds : List (List Str)) (w : World) :
    Mute w (enfComps σ es trig ds) := by
  induction ds generalizing w with
  | nil => exact .pure w ()
  | cons d ds ih =>
    unfold Mute enfComps
    show (if triggered w.g es d trig then _ else _) = _
    by_cases h : triggered w.g es d trig = true
    · rw [if_pos h, if_pos h]
      exact Mute.bind (enfComp_mute σ es d w) (fun _ w1 _ => ih w1)
    · rw [if_neg h, if_neg h]
      exact ih w

theorem enforce_mute (σ : Ord') (trig : Option (Str × Str)) (w : World) : Mute w (enforce σ trig) := by
  unfold Mute enforce
  have : w.mute.setEdges = w.setEdges := setEdgesL_mute w _
  rw [this]
  rcases w.setEdges with e | es
  · rfl
  · exact enfComps_mute σ es trig _ w

theorem setFrequency_mute (σ : Ord') (t : Nat) (f : ℚ) (w : World) : Mute w (setFrequency σ t f) := by
  unfold Mute setFrequency
  show (if (w.tr t).built then _ else _) = _
  by_cases hb : (w.tr t).built = true
  · rw [if_pos hb, if_pos hb]
    simp only
    set w1 := if truthy (w.tr t).setFreq = true ∧ (w.lv (w.tr t).upper).fixed = true ∧ (w.lv (w.tr t).lower).fixed = true
      then w.setFixed (w.tr t).upper false else w with hw1
    have e1 : (if truthy (w.mute.tr t).setFreq = true ∧ (w.mute.lv (w.mute.tr t).upper).fixed = true ∧
        (w.mute.lv (w.mute.tr t).lower).fixed = true then w.mute.setFixed (w.mute.tr t).upper false
        else w.mute) = w1.mute := by
      rw [hw1]
      show (if truthy (w.tr t).setFreq = true ∧ (w.lv (w.tr t).upper).fixed = true ∧ (w.lv (w.tr t).lower).fixed = true
        then w.mute.setFixed (w.tr t).upper false else w.mute) = _
      rw [mute_setFixed]
      split_ifs <;> rfl
    rw [e1]
    have e2 : w1.mute.setTr t { w1.mute.tr t with setFreq := some f } = (w1.setTr t { w1.tr t with setFreq := some f }).mute :=
      mute_setTr w1 t { w1.tr t with setFreq := some f }
    rw [e2]
    set w2 := w1.setTr t { w1.tr t with setFreq := some f }
    show (if (w2.lv (w2.tr t).e1).inAtom = true then enforce σ (some _) w2.mute else (w2.mute, Except.error PyErr.AttributeError)) = _
    by_cases h : (w2.lv (w2.tr t).e1).inAtom = true
    · rw [if_pos h, if_pos h]
      exact enforce_mute σ _ w2
    · rw [if_neg h, if_neg h]
  · rw [if_neg hb, if_neg hb]

theorem addTransition_mute (σ : Ord') (t : Nat) (w : World) : Mute w (addTransition σ t) := by
  unfold addTransition
  refine Mute.bind (trAddToAtom_mute t w) fun _ w1 _ => Mute.bind ?_ fun _ w2 _ => ?_
  · unfold Mute regTAlias
    show (match (w1.tr t).ali with
      | some s => ({ w1.mute with talias := w1.talias.set s t }, Except.ok ())
      | none => (w1.mute, Except.ok ())) = _
    rcases (w1.tr t).ali with _ | s <;> rfl
  · unfold Mute enforceIfSet
    show (if (w2.tr t).built then match (w2.tr t).setFreq with
      | some _ => enforce σ none w2.mute
      | none => (w2.mute, Except.ok ())
      else (w2.mute, Except.error PyErr.AttributeError)) = _
    split
    · rcases (w2.tr t).setFreq with _ | q
      · rfl
      · exact enforce_mute σ none w2
    · rfl

/-! ## Programs -/

/-- The call without hyperfine constants and rates. -/
def Op.mute : Op → Op
  | .newLevel t E l _ _ _ ali => .newLevel t E l 0 0 0 ali
  | .setConsts i l _ _ _ => .setConsts i l 0 0 0
  | .newTrans a b f A ali => .newTrans a b f (AtomTk.AArg.mute A) ali
  | op => op

/-- The call does not assign the energy of a sublevel. -/
def Op.NoSub : Op → Prop
  | .setHEnergy .. => False
  | .setZEnergy .. => False
  | _ => True

theorem op_mute (op : Op) (w : World) (h : op.NoSub) : op.mute.run w.mute = ((op.run w).1.mute, (op.run w).2) := by
  cases op with
  | newLevel t E l A B C ali =>
    show (({ w.mute with nlv := w.nlv + 1, lv := upd (fun k => (w.lv k).mute) w.nlv (ELevel.mute ⟨t, E, l, A, B, C, ali, false, false, []⟩) } : World),
      Except.ok ()) = _
    rw [upd_muteL]
    rfl
  | addLevel i p ali => exact addLevel_mute i p ali w
  | setItem k i => exact addLevel_mute i false (some k) w
  | delItem k => exact levelsDel_mute k w
  | getLevel k => exact Mute.void (levelsGet_mute k w)
  | getSub r k => exact Mute.void (refItem_mute r k w)
  | setAlias r al => exact setAlias_mute r al w
  | setEnergy i v => exact Prod.ext (mute_setE w i v) rfl
  | setHEnergy j v => exact h.elim
  | setZEnergy k v => exact h.elim
  | setConsts i l A B C => exact Prod.ext (mute_setLv w i { w.lv i with lande := l, hfA := A, hfB := B, hfC := C }) rfl
  | setQuad k q => rfl
  | setB b => rfl
  | newTrans a b f A ali =>
    show Op.void (World.newTrans a b f (AtomTk.AArg.mute A) ali) w.mute = ((Op.void (World.newTrans a b f A ali) w).1.mute, (Op.void _ w).2)
    unfold Op.void
    rw [newTrans_mute]
    rcases World.newTrans a b f A ali w with ⟨w1, e | u⟩ <;> rfl
  | addTransition σ t => exact addTransition_mute σ t w
  | setFrequency σ t f => exact setFrequency_mute σ t f w
  | enforce σ => exact enforce_mute σ none w
  | fillSub t keys => exact Prod.ext (mute_setTr w t { w.tr t with subKeys := keys }) rfl

theorem runAll_mute (ops : List Op) (w : World) (h : ∀ op ∈ ops, op.NoSub) :
    runAll (ops.map Op.mute) w.mute = (runAll ops w).mute ∧ outcomes (ops.map Op.mute) w.mute = outcomes ops w := by
  induction ops generalizing w with
  | nil => exact ⟨rfl, rfl⟩
  | cons op ops ih =>
    have h0 := op_mute op w (h op List.mem_cons_self)
    obtain ⟨h1, h2⟩ := ih (op.run w).1 (fun o ho => h o (List.mem_cons_of_mem _ ho))
    refine ⟨?_, ?_⟩
    · show runAll (ops.map Op.mute) (op.mute.run w.mute).1 = _
      rw [h0]
      exact h1
    · show (op.mute.run w.mute).2 :: outcomes (ops.map Op.mute) (op.mute.run w.mute).1 = _
      rw [h0]
      show _ = (op.run w).2 :: outcomes ops (op.run w).1
      rw [h2]

/-- The programs differ only in the hyperfine constants they give and assign, and in the rates they give. -/
def SameBut (ops ops' : List Op) : Prop := ops.map Op.mute = ops'.map Op.mute

/-- Two atoms that differ only in hyperfine constants of the levels and rates of the transitions. -/
structure AlikeBut (w v : World) : Prop where
  energy : ∀ i, v.eHz i = w.eHz i
  freq : ∀ t, v.freqHz t = w.freqHz t
  set : ∀ t, (v.tr t).setFreq = (w.tr t).setFreq ∧ (v.tr t).allowed = (w.tr t).allowed ∧ (v.tr t).upper = (w.tr t).upper ∧ (v.tr t).lower = (w.tr t).lower
  names : v.levelNames = w.levelNames
  links : v.g = w.g
  subs : ∀ i, (v.lv i).subs = (w.lv i).subs ∧ (v.lv i).lande = (w.lv i).lande ∧ (v.lv i).fixed = (w.lv i).fixed
  hf : v.hf = w.hf
  zl : v.zl = w.zl
  field : v.B = w.B
  aliases : v.lalias = w.lalias ∧ v.talias = w.talias
  warned : v.warned = w.warned

theorem alikeBut_of {w v : World} (h : v.mute = w.mute) : AlikeBut w v := by
  have key : ∀ {α : Type} (F : World → α), (∀ x : World, F x.mute = F x) → F v = F w := by
    intro α F hF
    rw [← hF v, ← hF w, h]
  have hl : ∀ i, (v.lv i).mute = (w.lv i).mute := fun i => congrArg (fun x => x.lv i) h
  have ht : ∀ t, (v.tr t).mute = (w.tr t).mute := fun t => congrArg (fun x => x.tr t) h
  refine ⟨fun i => key (fun x => x.eHz i) fun _ => rfl, fun t => key (fun x => x.freqHz t) fun _ => rfl, fun t => ?_,
    key levelNames fun _ => rfl, key World.g fun _ => rfl, fun i => ?_, key World.hf fun _ => rfl, key World.zl fun _ => rfl,
    key World.B fun _ => rfl, ⟨key World.lalias fun _ => rfl, key World.talias fun _ => rfl⟩, key World.warned fun _ => rfl⟩
  · exact ⟨key (fun x => (x.tr t).setFreq) fun _ => rfl, key (fun x => (x.tr t).allowed) fun _ => rfl,
      key (fun x => (x.tr t).upper) fun _ => rfl, key (fun x => (x.tr t).lower) fun _ => rfl⟩
  · exact ⟨key (fun x => (x.lv i).subs) fun _ => rfl, key (fun x => (x.lv i).lande) fun _ => rfl, key (fun x => (x.lv i).fixed) fun _ => rfl⟩

/-- The full claim: for every program. -/
def C181_full : Prop := ∀ (ops ops' : List Op) (I B : ℚ), SameBut ops ops' →
  AlikeBut (runAll ops (emptyAtom I B)) (runAll ops' (emptyAtom I B)) ∧ outcomes ops' (emptyAtom I B) = outcomes ops (emptyAtom I B)

/-- C181 for programs that assign no energies to sublevels: other hyperfine constants and other rates change no result, no exception, and of the atom nothing
but the constants and rates themselves. -/
theorem C181_constants_partial (ops ops' : List Op) (w : World) (hs : SameBut ops ops') (h : ∀ op ∈ ops, op.NoSub) (h' : ∀ op ∈ ops', op.NoSub) :
    AlikeBut (runAll ops w) (runAll ops' w) ∧ outcomes ops' w = outcomes ops w := by
  obtain ⟨h1, h2⟩ := runAll_mute ops w h
  obtain ⟨h3, h4⟩ := runAll_mute ops' w h'
  unfold SameBut at hs
  rw [← hs] at h3 h4
  exact ⟨alikeBut_of (h3.symm.trans h1), h4.symm.trans h2⟩

/-- So the energies of sublevels differ by the difference of the hyperfine shifts, and by nothing else: by nothing that happened on the way. -/
theorem C181_sublevels_partial (ops ops' : List Op) (w : World) (hs : SameBut ops ops') (h : ∀ op ∈ ops, op.NoSub) (h' : ∀ op ∈ ops', op.NoSub) {j : Nat} {e e' s s' : ℚ}
    (he : (runAll ops w).hHz j = .ok e) (he' : (runAll ops' w).hHz j = .ok e') (hsh : (runAll ops w).hShift j = .ok s) (hsh' : (runAll ops' w).hShift j = .ok s') :
    e' - e = s' - s := by
  obtain ⟨ha, -⟩ := C181_constants_partial ops ops' w hs h h'
  unfold hHz at he he'
  rw [hsh] at he
  rw [hsh'] at he'
  have g1 : _ = e := Except.ok.inj he
  have g2 : _ = e' := Except.ok.inj he'
  rw [← g1, ← g2, ha.hf, ha.energy]
  ring

/-- Two levels; the energy of a sublevel of the first is set. -/
def subOps (A : ℚ) : List Op := [.newLevel (demoTerm 'g') 0 2 A 0 0 none, .addLevel 0 true none, .setHEnergy 1 50]

/-- C181 fails: to put the sublevel at 50 Hz the level is moved by an amount that depends on A. -/
theorem C181_fails : ¬C181_full := by
  intro h
  have := (h (subOps 4) (subOps 8) (1/2) 0 rfl).1.energy 0
  revert this
  decide +kernel

/-- A program with hyperfine constants and a rate. -/
def constOps (A : ℚ) (r : AArg) : List Op := [.newLevel (demoTerm 'g') 0 2 A 0 0 none, .newLevel (demoTerm 'a') 500 2 8 0 0 none,
  .addLevel 0 true none, .addLevel 1 false none, .newTrans 0 1 (some 300) r none, .getSub (.fine 1) "F=1".toList, .enforce idOrd, .setConsts 1 2 (2 * A) 0 0]

example : SameBut (constOps 4 .none) (constOps 12 (.hz 7)) ∧ (∀ op ∈ constOps 4 .none, op.NoSub) ∧ (∀ op ∈ constOps 12 (.hz 7), op.NoSub) ∧
    (runAll (constOps 4 .none) (emptyAtom (1/2) 0)).hHz 1 = .ok 1 ∧ (runAll (constOps 12 (.hz 7)) (emptyAtom (1/2) 0)).hHz 1 = .ok 3 ∧
    (runAll (constOps 4 .none) (emptyAtom (1/2) 0)).eHz 1 = 300 := by
  refine ⟨rfl, ?_, ?_, by decide +kernel, by decide +kernel, by decide +kernel⟩ <;> intro op ho <;> simp only [constOps, List.mem_cons, List.not_mem_nil, or_false] at ho <;>
    rcases ho with rfl | rfl | rfl | rfl | rfl | rfl | rfl | rfl <;> trivial

end AtomTk
