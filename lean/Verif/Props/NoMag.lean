import Verif.Props.Mute
import Verif.Props.SubEnds

/-!
# C182: Lande factors and quadratic shifts act on nothing but the Zeeman levels
-/

namespace AtomTk
open Util World

/-- The level without Lande factor. -/
def ELevel.nomag (e : ELevel) : ELevel := { e with lande := 0 }
/-- The hyperfine level without its factor. -/
def HLevel.nomag (h : HLevel) : HLevel := { h with gF := 0 }
/-- The Zeeman level without its factor and quadratic shift. -/
def ZLvl.nomag (z : ZLvl) : ZLvl := { z with gF := 0, quad := 0 }
/-- The atom without Lande factors, and without what is computed from them, and without quadratic shifts. -/
def World.nomag (w : World) : World := { w with lv := fun i => (w.lv i).nomag, hf := fun j => (w.hf j).nomag, zl := fun k => (w.zl k).nomag }

/-- Without Lande factors and quadratic shifts the call does the same and gives the same. -/
def NoMag {α : Type} (w : World) (m : PyM α) : Prop := m w.nomag = ((m w).1.nomag, (m w).2)

theorem NoMag.bind {α β : Type} {w : World} {m : PyM α} {f : α → PyM β} (h : NoMag w m)
    (hf : ∀ a w1, m w = (w1, Except.ok a) → NoMag w1 (f a)) : NoMag w (m >>= f) := by
  unfold NoMag at *
  rw [PyM.bind_def, PyM.bind_def, h]
  rcases hm : m w with ⟨w1, e | a⟩
  · rfl
  · exact hf a w1 hm

theorem NoMag.get {β : Type} {w : World} {f : World → PyM β} (h : f w.nomag w.nomag = ((f w w).1.nomag, (f w w).2)) : NoMag w (PyM.get >>= f) := h
theorem NoMag.const {α : Type} (w : World) (r : Py α) : NoMag w (PyM.lift r) := rfl
theorem NoMag.raise {α : Type} (w : World) (e : PyErr) : NoMag w (PyM.raise e : PyM α) := rfl
theorem NoMag.pure {α : Type} (w : World) (a : α) : NoMag w (Pure.pure a : PyM α) := rfl

theorem NoMag.void {α : Type} {w : World} {m : PyM α} (h : NoMag w m) : NoMag w (Op.void m) := by
  unfold NoMag Op.void at *
  rw [h]
  rcases m w with ⟨w1, e | a⟩ <;> rfl

theorem upd_nomagL (f : Nat → ELevel) (i : Nat) (e : ELevel) : upd (fun k => (f k).nomag) i e.nomag = fun k => (upd f i e k).nomag := by
  funext k
  unfold upd
  split <;> rfl

theorem upd_nomagH (f : Nat → HLevel) (i : Nat) (e : HLevel) : upd (fun k => (f k).nomag) i e.nomag = fun k => (upd f i e k).nomag := by
  funext k
  unfold upd
  split <;> rfl

theorem upd_nomagZ (f : Nat → ZLvl) (i : Nat) (e : ZLvl) : upd (fun k => (f k).nomag) i e.nomag = fun k => (upd f i e k).nomag := by
  funext k
  unfold upd
  split <;> rfl

theorem compGF_zero (g I J F : ℚ) : compGF 0 I J F = match compGF g I J F with
    | .ok _ => .ok 0
    | .error e => .error e := by
  unfold compGF pyDiv
  split_ifs <;> simp_all

theorem nomag_setLv (w : World) (i : Nat) (e : ELevel) : w.nomag.setLv i e.nomag = (w.setLv i e).nomag := by
  have := upd_nomagL w.lv i e
  show ({ w.nomag with lv := upd (fun k => (w.lv k).nomag) i e.nomag } : World) = _
  rw [this]
  rfl

theorem nomagTr (w : World) (t : Nat) (x : Trans) : w.nomag.setTr t x = (w.setTr t x).nomag := rfl

theorem nomag_setE (w : World) (i : Nat) (v : ℚ) : w.nomag.setE i v = (w.setE i v).nomag := nomag_setLv w i { w.lv i with levelHz := v }
theorem nomag_setFixed (w : World) (i : Nat) (b : Bool) : w.nomag.setFixed i b = (w.setFixed i b).nomag := nomag_setLv w i { w.lv i with fixed := b }

/-! ## Populating and looking up -/

theorem popHF1_nomag (i : Nat) (f : ℚ) (w : World) : NoMag w (popHF1 i f) := by
  unfold NoMag popHF1
  show (match (w.lv i).term.makeCopy (.num f) .none with
    | Except.error e => (w.nomag, Except.error e)
    | Except.ok t => match t.J, t.F with
      | some J, some F => match compGF 0 w.I J F with
        | Except.error e => (w.nomag, Except.error e)
        | Except.ok g => ({ w.nomag with
            nhf := w.nhf + 1
            hf := upd (fun k => (w.hf k).nomag) w.nhf ⟨t, i, g, []⟩
            lv := upd (fun k => (w.lv k).nomag) i (ELevel.nomag { w.lv i with subs := (w.lv i).subs.set (fKey f) w.nhf }) }, Except.ok ())
      | _, _ => (w.nomag, Except.error PyErr.TypeError)) = _
  rw [upd_nomagL]
  rcases (w.lv i).term.makeCopy (.num f) .none with e | t
  · rfl
  · simp only
    rcases t.J with _ | J
    · rfl
    rcases t.F with _ | F
    · rfl
    simp only
    rw [compGF_zero (w.lv i).lande]
    rcases compGF (w.lv i).lande w.I J F with e | g
    · rfl
    · have := upd_nomagH w.hf w.nhf ⟨t, i, g, []⟩
      simp only
      rw [show (⟨t, i, 0, []⟩ : HLevel) = HLevel.nomag ⟨t, i, g, []⟩ from rfl, this]
      rfl

theorem popHFs_nomag (i : Nat) (l : List ℚ) (w : World) : NoMag w (popHFs i l) := by
  induction l generalizing w with
  | nil => exact .pure w ()
  | cons f fs ih =>
    unfold popHFs
    exact NoMag.bind (popHF1_nomag i f w) fun _ w1 _ => ih w1

theorem populateHF_nomag (i : Nat) (w : World) : NoMag w (populateHF i) := by
  unfold NoMag populateHF
  show (if (w.lv i).inAtom then match (w.lv i).term.J with
    | some J => popHFs i (hfFs w.I J) w.nomag
    | none => (w.nomag, Except.error PyErr.TypeError)
    else (w.nomag, Except.ok ())) = _
  split
  · cases (w.lv i).term.J with
    | none => rfl
    | some J => exact popHFs_nomag i _ w
  · rfl

theorem lazyHF_nomag (i : Nat) (w : World) : NoMag w (lazyHF i) := by
  unfold NoMag lazyHF
  show (if (w.lv i).subs.length = 0 then
    if (w.lv i).inAtom then populateHF i w.nomag else (w.nomag, Except.error PyErr.AttributeError)
    else (w.nomag, Except.ok ())) = _
  split_ifs
  · exact populateHF_nomag i w
  · rfl
  · rfl

theorem popZ1_nomag (j : Nat) (m : ℚ) (w : World) : NoMag w (popZ1 j m) := by
  unfold NoMag popZ1
  show (match (w.hf j).term.makeCopy .none (.num m) with
    | Except.error e => (w.nomag, Except.error e)
    | Except.ok t => match t.J, t.F with
      | some J, some F => match compGF 0 w.I J F with
        | Except.error e => (w.nomag, Except.error e)
        | Except.ok g => ({ w.nomag with
            nzl := w.nzl + 1
            zl := upd (fun k => (w.zl k).nomag) w.nzl ⟨t, j, g, 0⟩
            hf := upd (fun k => (w.hf k).nomag) j (HLevel.nomag { w.hf j with subs := (w.hf j).subs.set (mKey m) w.nzl }) }, Except.ok ())
      | _, _ => (w.nomag, Except.error PyErr.TypeError)) = _
  rw [upd_nomagH]
  rcases (w.hf j).term.makeCopy .none (.num m) with e | t
  · rfl
  · simp only
    rcases t.J with _ | J
    · rfl
    rcases t.F with _ | F
    · rfl
    simp only
    rw [compGF_zero (w.lv (w.hf j).parent).lande]
    rcases compGF (w.lv (w.hf j).parent).lande w.I J F with e | g
    · rfl
    · have := upd_nomagZ w.zl w.nzl ⟨t, j, g, 0⟩
      simp only
      rw [show (⟨t, j, 0, 0⟩ : ZLvl) = ZLvl.nomag ⟨t, j, g, 0⟩ from rfl, this]
      rfl

theorem popZs_nomag (j : Nat) (l : List ℚ) (w : World) : NoMag w (popZs j l) := by
  induction l generalizing w with
  | nil => exact .pure w ()
  | cons f fs ih =>
    unfold popZs
    exact NoMag.bind (popZ1_nomag j f w) fun _ w1 _ => ih w1

theorem lazyZ_nomag (j : Nat) (w : World) : NoMag w (lazyZ j) := by
  unfold NoMag lazyZ
  show (if (w.hf j).subs.length = 0 then match (w.hf j).term.F with
    | some F => popZs j (zMs F) w.nomag
    | none => (w.nomag, Except.error PyErr.TypeError)
    else (w.nomag, Except.ok ())) = _
  split
  · cases (w.hf j).term.F with
    | none => rfl
    | some F => exact popZs_nomag j _ w
  · rfl

theorem hfItem_nomag (j : Nat) (key : Str) (w : World) : NoMag w (hfItem j key) := by
  unfold hfItem
  refine NoMag.bind (lazyZ_nomag j w) fun _ w1 _ => NoMag.get ?_
  show (if w1.I = 0 ∧ isIn mJtxt key = true then _ else _ : PyM Nat) _ = _
  split_ifs <;> rfl

theorem lvItem_nomag (i : Nat) (key : Str) (w : World) : NoMag w (lvItem i key) := by
  unfold lvItem
  refine NoMag.bind (lazyHF_nomag i w) fun _ w1 _ => NoMag.get ?_
  show (if w1.I = 0 ∧ isIn mJtxt key = true then _ else _ : PyM Ref) _ = _
  split_ifs
  · exact NoMag.bind (NoMag.const w1 ((w1.lv i).subs.getE (Term.fEq ++ jFrac (w1.lv i).term)))
      (fun j w2 _ => NoMag.bind (hfItem_nomag j _ w2) fun k w3 _ => NoMag.pure w3 (Ref.zee k))
  · exact NoMag.bind (NoMag.const w1 ((w1.lv i).subs.getE key)) (fun j w2 _ => NoMag.pure w2 (Ref.hyp j))

theorem refItem_nomag (r : Ref) (key : Str) (w : World) : NoMag w (refItem r key) := by
  unfold refItem
  cases r with
  | fine i => exact lvItem_nomag i key w
  | hyp j => exact NoMag.bind (hfItem_nomag j key w) fun k w1 _ => NoMag.pure w1 (Ref.zee k)
  | zee k => exact NoMag.raise w _

theorem levelsGet_nomag (key : Str) (w : World) : NoMag w (levelsGet key) := by
  unfold levelsGet
  refine NoMag.get ?_
  show (match w.lalias.get? key with
    | some r => (Pure.pure r : PyM Ref)
    | none => _) w.nomag = _
  rcases w.lalias.get? key with _ | r
  on_goal 2 => rfl
  simp only
  split_ifs
  · rcases rsplit spc 2 key with _ | ⟨x, _ | ⟨y, _ | ⟨z, _ | ⟨u, l⟩⟩⟩⟩
    · rfl
    · rfl
    · rfl
    · exact NoMag.bind (NoMag.const w (w.g.levelAttrs.getE x)) (fun i w1 _ => NoMag.bind (lvItem_nomag i y w1) fun r w2 _ =>
        refItem_nomag r z w2)
    · rfl
  · rcases rsplit spcMJ 1 key with _ | ⟨x, _ | ⟨y, _ | ⟨z, l⟩⟩⟩
    · rfl
    · rfl
    · exact NoMag.bind (NoMag.const w (w.g.levelAttrs.getE x)) (fun i w1 _ => NoMag.bind (lvItem_nomag i _ w1) fun r w2 _ =>
        refItem_nomag r _ w2)
    · rfl
  · rcases rsplit spc 1 key with _ | ⟨x, _ | ⟨y, _ | ⟨z, l⟩⟩⟩
    · rfl
    · rfl
    · exact NoMag.bind (NoMag.const w (w.g.levelAttrs.getE x)) (fun i w1 _ => lvItem_nomag i y w1)
    · rfl
  · exact NoMag.bind (NoMag.const w (w.g.levelAttrs.getE key)) (fun i w1 _ => NoMag.pure w1 (Ref.fine i))

/-! ## Containers -/

theorem setAlias_nomag (r : Ref) (al : Str) (w : World) : NoMag w (setAlias r al) := by
  unfold NoMag setAlias
  cases r with
  | fine i =>
    have e : w.nomag.setLv i { w.nomag.lv i with ali := some al } = (w.setLv i { w.lv i with ali := some al }).nomag :=
      nomag_setLv w i { w.lv i with ali := some al }
    simp only
    rw [e]
    show (if ((w.setLv i { w.lv i with ali := some al }).lv i).inAtom = true then _ else _) = _
    split_ifs <;> rfl
  | hyp j => rfl
  | zee k => rfl

theorem addLevel_nomag (i : Nat) (p : Bool) (ali : Option Str) (w : World) : NoMag w (addLevel i p ali) := by
  unfold addLevel
  refine NoMag.bind ?_ fun _ w1 _ => NoMag.bind ?_ fun _ w2 _ => NoMag.bind ?_ fun _ w3 _ => ?_
  · show ({ w.nomag with lv := upd (fun k => (w.lv k).nomag) i (ELevel.nomag { w.lv i with inAtom := true }), g := w.g.addNode (w.lname i) i }, _) = _
    rw [upd_nomagL]
    rfl
  · cases ali with
    | none => exact .pure w1 ()
    | some al => exact setAlias_nomag (.fine i) al w1
  · unfold NoMag regAlias
    show (match (w2.lv i).ali with
      | some al => ({ w2.nomag with lalias := w2.lalias.set al (.fine i) }, Except.ok ())
      | none => (w2.nomag, Except.ok ())) = _
    cases (w2.lv i).ali with
    | none => rfl
    | some al => rfl
  · cases p
    · exact .pure w3 ()
    · exact populateHF_nomag i w3

theorem levelsDel_nomag (key : Str) (w : World) : NoMag w (levelsDel key) := by
  unfold NoMag levelsDel
  show (match w.g.removeNode key with
    | Except.ok g => ({ w.nomag with g := g }, Except.ok ())
    | Except.error e => (w.nomag, Except.error e)) = _
  rcases w.g.removeNode key with e | g <;> rfl

theorem setHLevel_nomag (j : Nat) (v : ℚ) (w : World) : NoMag w (setHLevel j v) := by
  unfold NoMag setHLevel
  show (match w.hHz j with
    | Except.ok cur => (w.nomag.setE (w.hf j).parent (w.eHz (w.hf j).parent + (v - cur)), Except.ok ())
    | Except.error e => (w.nomag, Except.error e)) = _
  rcases w.hHz j with e | cur
  · rfl
  · simp only
    rw [nomag_setE]

/-! ## Transitions -/

theorem trAddToAtom_nomag (t : Nat) (w : World) : NoMag w (trAddToAtom t) := by
  unfold NoMag trAddToAtom
  simp only
  show (if (w.tr t).subKeys.length = 0 then _ else _) = _
  split_ifs <;> rfl

theorem newTransObj_nomag (a b : Nat) (ali : Option Str) (w : World) :
    NoMag w (newTransObj a b ali) := by
  unfold NoMag newTransObj
  simp only
  set x : Trans := ⟨a, b, if w.eHz b > w.eHz a then a else b, if w.eHz b > w.eHz a then b else a, false, none, (false, false, false), none, ali, []⟩
    with hx
  have e : ({ w.nomag with ntr := w.ntr + 1, tr := upd w.tr w.ntr x } : World) =
      World.nomag { w with ntr := w.ntr + 1, tr := upd w.tr w.ntr x } := by
    rfl
  show (if (w.lv a).inAtom = true then
      match trAddToAtom w.ntr ({ w.nomag with ntr := w.ntr + 1, tr := upd w.tr w.ntr x } : World) with
      | (w'', Except.ok ()) => (w'', Except.ok w.ntr)
      | (w'', Except.error e) => (w'', Except.error e)
    else (({ w.nomag with ntr := w.ntr + 1, tr := upd w.tr w.ntr x } : World), Except.ok w.ntr)) = _
  rw [e]
  set w' : World := { w with ntr := w.ntr + 1, tr := upd w.tr w.ntr x } with hw'
  split_ifs
  · rw [trAddToAtom_nomag w.ntr w']
    rcases trAddToAtom w.ntr w' with ⟨w2, e | u⟩ <;> rfl
  · rfl

theorem attrsTail_nomag (t : Nat) (w : World) : NoMag w (attrsTail t) := by
  unfold NoMag attrsTail
  show (match (w.tr t).ali with
    | none => (w.nomag, Except.ok ())
    | some s => if (w.lv (w.tr t).e1).inAtom = true then ({ w.nomag with talias := w.talias.set s t }, Except.ok ())
      else (w.nomag, Except.error PyErr.AttributeError)) = _
  rcases (w.tr t).ali with _ | s
  · rfl
  · simp only
    split_ifs <;> rfl

theorem newTransAttrs_nomag (t : Nat) (f : Option ℚ) (A : AArg) (w : World) : NoMag w (newTransAttrs t f A) := by
  unfold NoMag
  by_cases hA : ∀ e, A ≠ .bad e
  · rw [newTransAttrs_eq _ _ _ _ hA, newTransAttrs_eq _ _ _ _ hA]
    have e : w.nomag.transAllowed (w.nomag.tr t).e1 (w.nomag.tr t).e2 = w.transAllowed (w.tr t).e1 (w.tr t).e2 := rfl
    rw [e]
    rcases w.transAllowed (w.tr t).e1 (w.tr t).e2 with e | al
    · rfl
    · exact attrsTail_nomag t (w.setTr t { w.tr t with built := true, A := A.rate, allowed := al, setFreq := f })
  · cases A with
    | bad e => rfl
    | none => exact absurd (fun e h => by cases h) hA
    | hz q => exact absurd (fun e h => by cases h) hA

theorem newTrans_nomag (a b : Nat) (f : Option ℚ) (A : AArg) (ali : Option Str) (w : World) : NoMag w (World.newTrans a b f A ali) := by
  unfold World.newTrans
  exact NoMag.bind (newTransObj_nomag a b ali w) fun t w1 _ => NoMag.bind (newTransAttrs_nomag t f A w1) fun _ w2 _ => NoMag.pure w2 t

/-! ## Enforcement -/

theorem setEdgesL_nomag (w : World) (l : List ((Str × Str) × Nat)) : setEdgesL w.nomag l = setEdgesL w l := by
  induction l with
  | nil => rfl
  | cons q l ih =>
    obtain ⟨e, t⟩ := q
    unfold setEdgesL
    rw [ih]
    rfl

theorem lowestLoop_nomag (w : World) (l : List (Str × Option Nat)) (cur : Option Nat) (n : Option Str) :
    lowestLoop w.nomag l cur n = lowestLoop w l cur n := by
  induction l generalizing cur n with
  | nil => rfl
  | cons q l ih =>
    obtain ⟨m, o⟩ := q
    cases cur with
    | none => unfold lowestLoop; exact ih _ _
    | some cu =>
      cases o with
      | none => rfl
      | some i =>
        unfold lowestLoop
        rw [ih, ih]
        rfl

theorem enfEdge_nomag (u v : Str) (w : World) : NoMag w (enfEdge u v) := by
  unfold NoMag enfEdge
  show (match w.g.adj u v with
    | none => (w.nomag, Except.error PyErr.KeyError)
    | some t => _) = _
  rcases w.g.adj u v with _ | t
  · rfl
  simp only
  show (match (w.tr t).setFreq with
    | none => (w.nomag, Except.error PyErr.AttributeError)
    | some f => _) = _
  rcases (w.tr t).setFreq with _ | f
  · rfl
  simp only
  refine Prod.ext ?_ rfl
  show World.setFixed (World.setFixed (if (w.lv (w.tr t).lower).fixed = true ∧ (w.lv (w.tr t).upper).fixed = true ∧
      f ≠ |w.eHz (w.tr t).lower - w.eHz (w.tr t).upper| then World.nomag { w with warned := w.warned + 1 }
    else if (w.lv (w.tr t).upper).fixed = true then w.nomag.setE (w.tr t).lower (w.eHz (w.tr t).upper - f)
    else w.nomag.setE (w.tr t).upper (w.eHz (w.tr t).lower + f)) (w.tr t).upper true) (w.tr t).lower true = _
  rw [nomag_setE, nomag_setE]
  split_ifs <;> rw [nomag_setFixed, nomag_setFixed]

theorem enfEdges_nomag (l : List (Str × Str)) (w : World) : NoMag w (enfEdges l) := by
  induction l generalizing w with
  | nil => exact .pure w ()
  | cons q l ih =>
    obtain ⟨u, v⟩ := q
    unfold enfEdges
    exact NoMag.bind (enfEdge_nomag u v w) fun _ w1 _ => ih w1

theorem enfComp_nomag (σ : Ord') (es : List (Str × Str)) (d : List Str) (w : World) : NoMag w (enfComp σ es d) := by
  unfold NoMag enfComp
  rw [lowestLoop_nomag]
  show (match lowestLoop w (withLevels w.g (σ (.low d) d)) none none with
    | Except.error e => (w.nomag, Except.error e)
    | Except.ok none => (w.nomag, Except.ok ())
    | Except.ok (some s) => enfEdges (Graph.dfsEdges d (fun n => σ (.nbrs d n) (subNbrs w.g es n)) s) w.nomag) = _
  rcases lowestLoop w (withLevels w.g (σ (.low d) d)) none none with e | _ | s
  · rfl
  · rfl
  · exact enfEdges_nomag _ w

theorem enfComps_nomag (σ : Ord') (es : List (Str × Str)) (trig : Option (Str × Str)) (ds : List (List Str)) (w : World) :
    NoMag w (enfComps σ es trig ds) := by
  induction ds generalizing w with
  | nil => exact .pure w ()
  | cons d ds ih =>
    unfold NoMag enfComps
    show (if triggered w.g es d trig then _ else _) = _
    by_cases h : triggered w.g es d trig = true
    · rw [if_pos h, if_pos h]
      exact NoMag.bind (enfComp_nomag σ es d w) (fun _ w1 _ => ih w1)
    · rw [if_neg h, if_neg h]
      exact ih w

theorem enforce_nomag (σ : Ord') (trig : Option (Str × Str)) (w : World) : NoMag w (enforce σ trig) := by
  unfold NoMag enforce
  have : w.nomag.setEdges = w.setEdges := setEdgesL_nomag w _
  rw [this]
  rcases w.setEdges with e | es
  · rfl
  · exact enfComps_nomag σ es trig _ w

theorem setFrequency_nomag (σ : Ord') (t : Nat) (f : ℚ) (w : World) : NoMag w (setFrequency σ t f) := by
  unfold NoMag setFrequency
  show (if (w.tr t).built then _ else _) = _
  by_cases hb : (w.tr t).built = true
  · rw [if_pos hb, if_pos hb]
    simp only
    set w1 := if truthy (w.tr t).setFreq = true ∧ (w.lv (w.tr t).upper).fixed = true ∧ (w.lv (w.tr t).lower).fixed = true
      then w.setFixed (w.tr t).upper false else w with hw1
    have e1 : (if truthy (w.nomag.tr t).setFreq = true ∧ (w.nomag.lv (w.nomag.tr t).upper).fixed = true ∧
        (w.nomag.lv (w.nomag.tr t).lower).fixed = true then w.nomag.setFixed (w.nomag.tr t).upper false
        else w.nomag) = w1.nomag := by
      rw [hw1]
      show (if truthy (w.tr t).setFreq = true ∧ (w.lv (w.tr t).upper).fixed = true ∧ (w.lv (w.tr t).lower).fixed = true
        then w.nomag.setFixed (w.tr t).upper false else w.nomag) = _
      rw [nomag_setFixed]
      split_ifs <;> rfl
    rw [e1]
    have e2 : w1.nomag.setTr t { w1.nomag.tr t with setFreq := some f } = (w1.setTr t { w1.tr t with setFreq := some f }).nomag :=
      nomagTr w1 t { w1.tr t with setFreq := some f }
    rw [e2]
    set w2 := w1.setTr t { w1.tr t with setFreq := some f }
    show (if (w2.lv (w2.tr t).e1).inAtom = true then enforce σ (some _) w2.nomag else (w2.nomag, Except.error PyErr.AttributeError)) = _
    by_cases h : (w2.lv (w2.tr t).e1).inAtom = true
    · rw [if_pos h, if_pos h]
      exact enforce_nomag σ _ w2
    · rw [if_neg h, if_neg h]
  · rw [if_neg hb, if_neg hb]

theorem addTransition_nomag (σ : Ord') (t : Nat) (w : World) : NoMag w (addTransition σ t) := by
  unfold addTransition
  refine NoMag.bind (trAddToAtom_nomag t w) fun _ w1 _ => NoMag.bind ?_ fun _ w2 _ => ?_
  · unfold NoMag regTAlias
    show (match (w1.tr t).ali with
      | some s => ({ w1.nomag with talias := w1.talias.set s t }, Except.ok ())
      | none => (w1.nomag, Except.ok ())) = _
    rcases (w1.tr t).ali with _ | s <;> rfl
  · unfold NoMag enforceIfSet
    show (if (w2.tr t).built then match (w2.tr t).setFreq with
      | some _ => enforce σ none w2.nomag
      | none => (w2.nomag, Except.ok ())
      else (w2.nomag, Except.error PyErr.AttributeError)) = _
    split
    · rcases (w2.tr t).setFreq with _ | q
      · rfl
      · exact enforce_nomag σ none w2
    · rfl

/-! ## Programs -/

/-- The call without Lande factor and quadratic shift. -/
def Op.nomag : Op → Op
  | .newLevel t E _ A B C ali => .newLevel t E 0 A B C ali
  | .setConsts i _ A B C => .setConsts i 0 A B C
  | .setQuad k _ => .setQuad k 0
  | op => op

/-- The call does not assign the energy of a Zeeman level. -/
def Op.NoZee : Op → Prop
  | .setZEnergy .. => False
  | _ => True

theorem op_nomag (op : Op) (w : World) (h : op.NoZee) : op.nomag.run w.nomag = ((op.run w).1.nomag, (op.run w).2) := by
  cases op with
  | newLevel t E l A B C ali =>
    show (({ w.nomag with nlv := w.nlv + 1, lv := upd (fun k => (w.lv k).nomag) w.nlv (ELevel.nomag ⟨t, E, l, A, B, C, ali, false, false, []⟩) } : World),
      Except.ok ()) = _
    rw [upd_nomagL]
    rfl
  | addLevel i p ali => exact addLevel_nomag i p ali w
  | setItem k i => exact addLevel_nomag i false (some k) w
  | delItem k => exact levelsDel_nomag k w
  | getLevel k => exact NoMag.void (levelsGet_nomag k w)
  | getSub r k => exact NoMag.void (refItem_nomag r k w)
  | setAlias r al => exact setAlias_nomag r al w
  | setEnergy i v => exact Prod.ext (nomag_setE w i v) rfl
  | setHEnergy j v => exact setHLevel_nomag j v w
  | setZEnergy k v => exact h.elim
  | setConsts i l A B C => exact Prod.ext (nomag_setLv w i { w.lv i with lande := l, hfA := A, hfB := B, hfC := C }) rfl
  | setQuad k q =>
    show (({ w.nomag with zl := upd (fun i => (w.zl i).nomag) k (ZLvl.nomag { w.zl k with quad := q }) } : World), Except.ok ()) = _
    rw [upd_nomagZ]
    rfl
  | setB b => rfl
  | newTrans a b f A ali => exact NoMag.void (newTrans_nomag a b f A ali w)
  | addTransition σ t => exact addTransition_nomag σ t w
  | setFrequency σ t f => exact setFrequency_nomag σ t f w
  | enforce σ => exact enforce_nomag σ none w
  | fillSub t keys => rfl

theorem runAll_nomag (ops : List Op) (w : World) (h : ∀ op ∈ ops, op.NoZee) :
    runAll (ops.map Op.nomag) w.nomag = (runAll ops w).nomag ∧ outcomes (ops.map Op.nomag) w.nomag = outcomes ops w := by
  induction ops generalizing w with
  | nil => exact ⟨rfl, rfl⟩
  | cons op ops ih =>
    have h0 := op_nomag op w (h op List.mem_cons_self)
    obtain ⟨h1, h2⟩ := ih (op.run w).1 (fun o ho => h o (List.mem_cons_of_mem _ ho))
    refine ⟨?_, ?_⟩
    · show runAll (ops.map Op.nomag) (op.nomag.run w.nomag).1 = _
      rw [h0]
      exact h1
    · show (op.nomag.run w.nomag).2 :: outcomes (ops.map Op.nomag) (op.nomag.run w.nomag).1 = _
      rw [h0]
      show _ = (op.run w).2 :: outcomes ops (op.run w).1
      rw [h2]

/-- The programs differ only in the Lande factors they give and assign, and in the quadratic shifts they assign. -/
def SameMag (ops ops' : List Op) : Prop := ops.map Op.nomag = ops'.map Op.nomag

/-- Two atoms that differ only in Lande factors, the factors of sublevels and quadratic shifts. -/
structure AlikeMag (w v : World) : Prop where
  energy : ∀ i, v.eHz i = w.eHz i
  hyperfine : ∀ j, v.hHz j = w.hHz j
  tr : v.tr = w.tr
  freq : ∀ t, v.freqHz t = w.freqHz t
  names : v.levelNames = w.levelNames
  links : v.g = w.g
  consts : ∀ i, (v.lv i).hfA = (w.lv i).hfA ∧ (v.lv i).hfB = (w.lv i).hfB ∧ (v.lv i).hfC = (w.lv i).hfC ∧ (v.lv i).fixed = (w.lv i).fixed
  subs : ∀ i, (v.lv i).subs = (w.lv i).subs
  hf : ∀ j, (v.hf j).term = (w.hf j).term ∧ (v.hf j).parent = (w.hf j).parent ∧ (v.hf j).subs = (w.hf j).subs
  zl : ∀ k, (v.zl k).term = (w.zl k).term ∧ (v.zl k).parent = (w.zl k).parent
  field : v.B = w.B
  aliases : v.lalias = w.lalias ∧ v.talias = w.talias
  warned : v.warned = w.warned

theorem alikeMag_of {w v : World} (h : v.nomag = w.nomag) : AlikeMag w v := by
  have key : ∀ {α : Type} (F : World → α), (∀ x : World, F x.nomag = F x) → F v = F w := by
    intro α F hF
    rw [← hF v, ← hF w, h]
  refine ⟨fun i => key (fun x => x.eHz i) fun _ => rfl, fun j => key (fun x => x.hHz j) fun _ => rfl, key World.tr fun _ => rfl,
    fun t => key (fun x => x.freqHz t) fun _ => rfl, key levelNames fun _ => rfl, key World.g fun _ => rfl, fun i => ?_,
    fun i => key (fun x => (x.lv i).subs) fun _ => rfl, fun j => ?_, fun k => ?_, key World.B fun _ => rfl,
    ⟨key World.lalias fun _ => rfl, key World.talias fun _ => rfl⟩, key World.warned fun _ => rfl⟩
  · exact ⟨key (fun x => (x.lv i).hfA) fun _ => rfl, key (fun x => (x.lv i).hfB) fun _ => rfl, key (fun x => (x.lv i).hfC) fun _ => rfl,
      key (fun x => (x.lv i).fixed) fun _ => rfl⟩
  · exact ⟨key (fun x => (x.hf j).term) fun _ => rfl, key (fun x => (x.hf j).parent) fun _ => rfl, key (fun x => (x.hf j).subs) fun _ => rfl⟩
  · exact ⟨key (fun x => (x.zl k).term) fun _ => rfl, key (fun x => (x.zl k).parent) fun _ => rfl⟩

/-- The full claim: for every program. -/
def C182_full : Prop := ∀ (ops ops' : List Op) (I B : ℚ), SameMag ops ops' →
  AlikeMag (runAll ops (emptyAtom I B)) (runAll ops' (emptyAtom I B)) ∧ outcomes ops' (emptyAtom I B) = outcomes ops (emptyAtom I B)

/-- C182 for programs that assign no energies to Zeeman levels: other Lande factors and other quadratic shifts change no result, no exception, and of the atom
nothing but the factors and quadratic shifts themselves. -/
theorem C182_factors_partial (ops ops' : List Op) (w : World) (hs : SameMag ops ops') (h : ∀ op ∈ ops, op.NoZee) (h' : ∀ op ∈ ops', op.NoZee) :
    AlikeMag (runAll ops w) (runAll ops' w) ∧ outcomes ops' w = outcomes ops w := by
  obtain ⟨h1, h2⟩ := runAll_nomag ops w h
  obtain ⟨h3, h4⟩ := runAll_nomag ops' w h'
  unfold SameMag at hs
  rw [← hs] at h3 h4
  exact ⟨alikeMag_of (h3.symm.trans h1), h4.symm.trans h2⟩

/-- The energies of Zeeman levels differ by the difference of the Zeeman shifts, and by nothing else. -/
theorem C182_zeeman_partial (ops ops' : List Op) (w : World) (hs : SameMag ops ops') (h : ∀ op ∈ ops, op.NoZee) (h' : ∀ op ∈ ops', op.NoZee) {k : Nat} {e e' s s' : ℚ}
    (he : (runAll ops w).zHz k = .ok e) (he' : (runAll ops' w).zHz k = .ok e') (hsh : (runAll ops w).zShiftHz k = .ok s)
    (hsh' : (runAll ops' w).zShiftHz k = .ok s') : e' - e = s' - s := by
  obtain ⟨ha, -⟩ := C182_factors_partial ops ops' w hs h h'
  unfold zHz at he he'
  rw [(ha.zl k).2, ha.hyperfine] at he'
  obtain ⟨p, hp, he⟩ := bindOkInv he
  obtain ⟨p', hp', he'⟩ := bindOkInv he'
  obtain rfl : p = p' := Except.ok.inj (hp.symm.trans hp')
  rw [hsh] at he
  rw [hsh'] at he'
  have g1 : p + s = e := Except.ok.inj he
  have g2 : p + s' = e' := Except.ok.inj he'
  rw [← g1, ← g2]
  ring

/-- Without a field they make no difference to any energy. -/
theorem C182_no_field_partial (ops ops' : List Op) (w : World) (hs : SameMag ops ops') (h : ∀ op ∈ ops, op.NoZee) (h' : ∀ op ∈ ops', op.NoZee)
    (hB : (runAll ops w).B = 0) (k : Nat) : (runAll ops' w).zHz k = (runAll ops w).zHz k := by
  obtain ⟨ha, -⟩ := C182_factors_partial ops ops' w hs h h'
  have e : (runAll ops' w).zShiftHz k = (runAll ops w).zShiftHz k := by
    unfold zShiftHz
    rw [(ha.zl k).1, ha.field, hB]
    cases ((runAll ops w).zl k).term.mF with
    | none => rfl
    | some m => simp [zShift]
  unfold zHz
  rw [e, (ha.zl k).2, ha.hyperfine]

/-- A level; the energy of one of its Zeeman levels is set. -/
def zeeOps (g : ℚ) : List Op := [.newLevel (demoTerm 'g') 0 g 4 0 0 none, .addLevel 0 true none, .getSub (.hyp 1) "mF=1".toList, .setZEnergy 2 50]

/-- C182 fails: to put the Zeeman level at 50 Hz the level is moved by an amount that depends on the Lande factor. -/
theorem C182_fails : ¬C182_full := by
  intro h
  have := (h (zeeOps 2) (zeeOps 3) (1/2) 1 rfl).1.energy 0
  revert this
  decide +kernel

/-- A program with Lande factors and a quadratic shift. -/
def magOps (g q : ℚ) : List Op := [.newLevel (demoTerm 'g') 0 g 4 0 0 none, .newLevel (demoTerm 'a') 500 2 8 0 0 none,
  .addLevel 0 true none, .addLevel 1 false none, .newTrans 0 1 (some 300) .none none, .getSub (.hyp 1) "mF=1".toList, .setQuad 2 q, .setHEnergy 1 50,
  .enforce idOrd]

example : SameMag (magOps 2 0) (magOps 3 7) ∧ (∀ op ∈ magOps 2 0, op.NoZee) ∧ (∀ op ∈ magOps 3 7, op.NoZee) ∧
    ((runAll (magOps 2 0) (emptyAtom (1/2) 1)).zHz 2 ≠ (runAll (magOps 3 7) (emptyAtom (1/2) 1)).zHz 2) ∧
    (runAll (magOps 2 0) (emptyAtom (1/2) 1)).hHz 1 = .ok 50 ∧ (runAll (magOps 3 7) (emptyAtom (1/2) 1)).hHz 1 = .ok 50 ∧
    (runAll (magOps 3 7) (emptyAtom (1/2) 1)).eHz 1 = 349 := by
  refine ⟨rfl, ?_, ?_, by decide +kernel, by decide +kernel, by decide +kernel, by decide +kernel⟩ <;> intro op ho <;> simp only [magOps, List.mem_cons, List.not_mem_nil, or_false] at ho <;>
    rcases ho with rfl | rfl | rfl | rfl | rfl | rfl | rfl | rfl | rfl <;> trivial

end AtomTk
