import Verif.Props.Quiet
import Verif.Props.Whole

/-!
# C159: the field acts on the energies of Zeeman levels and on nothing else
-/

namespace AtomTk
open Util World

/-- The atom in another field. -/
def World.inField (w : World) (b : ℚ) : World := { w with B := b }

/-- In another field the call does the same and gives the same. -/
def Blind {α : Type} (w : World) (m : PyM α) : Prop := ∀ b, m (w.inField b) = ((m w).1.inField b, (m w).2)

theorem Blind.bind {α β : Type} {w : World} {m : PyM α} {f : α → PyM β} (h : Blind w m)
    (hf : ∀ a w1, m w = (w1, Except.ok a) → Blind w1 (f a)) : Blind w (m >>= f) := by
  intro b
  rw [PyM.bind_def, PyM.bind_def, h b]
  rcases hm : m w with ⟨w1, e | a⟩
  · rfl
  · exact hf a w1 hm b

theorem Blind.get {β : Type} {w : World} {f : World → PyM β} (h : ∀ b, f (w.inField b) (w.inField b) = ((f w w).1.inField b, (f w w).2)) :
    Blind w (PyM.get >>= f) := h

theorem Blind.const {α : Type} (w : World) (r : Py α) : Blind w (PyM.lift r) := fun _ => rfl
theorem Blind.raise {α : Type} (w : World) (e : PyErr) : Blind w (PyM.raise e : PyM α) := fun _ => rfl
theorem Blind.pure {α : Type} (w : World) (a : α) : Blind w (Pure.pure a : PyM α) := fun _ => rfl

theorem Blind.void {α : Type} {w : World} {m : PyM α} (h : Blind w m) : Blind w (Op.void m) := by
  intro b
  unfold Op.void
  rw [h b]
  rcases m w with ⟨w1, e | a⟩ <;> rfl

/-! ## Populating and looking up -/

theorem popHF1_blind (i : Nat) (f : ℚ) (w : World) : Blind w (popHF1 i f) := by
  intro b
  unfold popHF1
  show (match (w.lv i).term.makeCopy (.num f) .none with
    | Except.error e => (w.inField b, Except.error e)
    | Except.ok t => match t.J, t.F with
      | some J, some F => match compGF (w.lv i).lande w.I J F with
        | Except.error e => (w.inField b, Except.error e)
        | Except.ok g => _
      | _, _ => (w.inField b, Except.error PyErr.TypeError)) = _
  rcases (w.lv i).term.makeCopy (.num f) .none with e | t
  · rfl
  · simp only
    rcases t.J with _ | J
    · rfl
    rcases t.F with _ | F
    · rfl
    simp only
    rcases compGF (w.lv i).lande w.I J F with e | g <;> rfl

theorem popHFs_blind (i : Nat) (l : List ℚ) (w : World) : Blind w (popHFs i l) := by
  induction l generalizing w with
  | nil => exact .pure w ()
  | cons f fs ih =>
    unfold popHFs
    exact Blind.bind (popHF1_blind i f w) fun _ w1 _ => ih w1

theorem populateHF_blind (i : Nat) (w : World) : Blind w (populateHF i) := by
  intro b
  unfold populateHF
  show (if (w.lv i).inAtom then match (w.lv i).term.J with
    | some J => popHFs i (hfFs w.I J) (w.inField b)
    | none => (w.inField b, Except.error PyErr.TypeError)
    else (w.inField b, Except.ok ())) = _
  split
  · cases (w.lv i).term.J with
    | none => rfl
    | some J => exact popHFs_blind i _ w b
  · rfl

theorem lazyHF_blind (i : Nat) (w : World) : Blind w (lazyHF i) := by
  intro b
  unfold lazyHF
  show (if (w.lv i).subs.length = 0 then
    if (w.lv i).inAtom then populateHF i (w.inField b) else (w.inField b, Except.error PyErr.AttributeError)
    else (w.inField b, Except.ok ())) = _
  split_ifs
  · exact populateHF_blind i w b
  · rfl
  · rfl

theorem popZ1_blind (j : Nat) (m : ℚ) (w : World) : Blind w (popZ1 j m) := by
  intro b
  unfold popZ1
  show (match (w.hf j).term.makeCopy .none (.num m) with
    | Except.error e => (w.inField b, Except.error e)
    | Except.ok t => match t.J, t.F with
      | some J, some F => match compGF (w.lv (w.hf j).parent).lande w.I J F with
        | Except.error e => (w.inField b, Except.error e)
        | Except.ok g => _
      | _, _ => (w.inField b, Except.error PyErr.TypeError)) = _
  rcases (w.hf j).term.makeCopy .none (.num m) with e | t
  · rfl
  · simp only
    rcases t.J with _ | J
    · rfl
    rcases t.F with _ | F
    · rfl
    simp only
    rcases compGF (w.lv (w.hf j).parent).lande w.I J F with e | g <;> rfl

theorem popZs_blind (j : Nat) (l : List ℚ) (w : World) : Blind w (popZs j l) := by
  induction l generalizing w with
  | nil => exact .pure w ()
  | cons f fs ih =>
    unfold popZs
    exact Blind.bind (popZ1_blind j f w) fun _ w1 _ => ih w1

theorem lazyZ_blind (j : Nat) (w : World) : Blind w (lazyZ j) := by
  intro b
  unfold lazyZ
  show (if (w.hf j).subs.length = 0 then match (w.hf j).term.F with
    | some F => popZs j (zMs F) (w.inField b)
    | none => (w.inField b, Except.error PyErr.TypeError)
    else (w.inField b, Except.ok ())) = _
  split
  · cases (w.hf j).term.F with
    | none => rfl
    | some F => exact popZs_blind j _ w b
  · rfl

theorem hfItem_blind (j : Nat) (key : Str) (w : World) : Blind w (hfItem j key) := by
  unfold hfItem
  refine Blind.bind (lazyZ_blind j w) fun _ w1 _ => Blind.get fun b => ?_
  show (if w1.I = 0 ∧ isIn mJtxt key = true then _ else _ : PyM Nat) _ = _
  split_ifs <;> rfl

theorem lvItem_blind (i : Nat) (key : Str) (w : World) : Blind w (lvItem i key) := by
  unfold lvItem
  refine Blind.bind (lazyHF_blind i w) fun _ w1 _ => Blind.get fun b => ?_
  show (if w1.I = 0 ∧ isIn mJtxt key = true then _ else _ : PyM Ref) _ = _
  split_ifs
  · exact Blind.bind (Blind.const w1 ((w1.lv i).subs.getE (Term.fEq ++ jFrac (w1.lv i).term)))
      (fun j w2 _ => Blind.bind (hfItem_blind j _ w2) fun k w3 _ => Blind.pure w3 (Ref.zee k)) b
  · exact Blind.bind (Blind.const w1 ((w1.lv i).subs.getE key)) (fun j w2 _ => Blind.pure w2 (Ref.hyp j)) b

theorem refItem_blind (r : Ref) (key : Str) (w : World) : Blind w (refItem r key) := by
  unfold refItem
  cases r with
  | fine i => exact lvItem_blind i key w
  | hyp j => exact Blind.bind (hfItem_blind j key w) fun k w1 _ => Blind.pure w1 (Ref.zee k)
  | zee k => exact Blind.raise w _

theorem levelsGet_blind (key : Str) (w : World) : Blind w (levelsGet key) := by
  unfold levelsGet
  refine Blind.get fun b => ?_
  show (match w.lalias.get? key with
    | some r => (Pure.pure r : PyM Ref)
    | none => _) (w.inField b) = _
  rcases w.lalias.get? key with _ | r
  · simp only
    split_ifs
    · rcases rsplit spc 2 key with _ | ⟨x, _ | ⟨y, _ | ⟨z, _ | ⟨u, l⟩⟩⟩⟩
      · rfl
      · rfl
      · rfl
      · exact Blind.bind (Blind.const w (w.g.levelAttrs.getE x)) (fun i w1 _ => Blind.bind (lvItem_blind i y w1) fun r w2 _ =>
          refItem_blind r z w2) b
      · rfl
    · rcases rsplit spcMJ 1 key with _ | ⟨x, _ | ⟨y, _ | ⟨z, l⟩⟩⟩
      · rfl
      · rfl
      · exact Blind.bind (Blind.const w (w.g.levelAttrs.getE x)) (fun i w1 _ => Blind.bind (lvItem_blind i _ w1) fun r w2 _ =>
          refItem_blind r _ w2) b
      · rfl
    · rcases rsplit spc 1 key with _ | ⟨x, _ | ⟨y, _ | ⟨z, l⟩⟩⟩
      · rfl
      · rfl
      · exact Blind.bind (Blind.const w (w.g.levelAttrs.getE x)) (fun i w1 _ => lvItem_blind i y w1) b
      · rfl
    · exact Blind.bind (Blind.const w (w.g.levelAttrs.getE key)) (fun i w1 _ => Blind.pure w1 (Ref.fine i)) b
  · rfl

/-! ## Containers -/

theorem setAlias_blind (r : Ref) (al : Str) (w : World) : Blind w (setAlias r al) := by
  intro b
  unfold setAlias
  cases r with
  | fine i =>
    simp only
    show (if ((w.setLv i { w.lv i with ali := some al }).lv i).inAtom = true then _ else _) = _
    split_ifs <;> rfl
  | hyp j => rfl
  | zee k => rfl

theorem addLevel_blind (i : Nat) (p : Bool) (ali : Option Str) (w : World) : Blind w (addLevel i p ali) := by
  unfold addLevel
  refine Blind.bind (fun b => rfl) fun _ w1 _ => Blind.bind ?_ fun _ w2 _ => Blind.bind ?_ fun _ w3 _ => ?_
  · cases ali with
    | none => exact .pure w1 ()
    | some al => exact setAlias_blind (.fine i) al w1
  · intro b
    unfold regAlias
    show (match (w2.lv i).ali with
      | some al => ({ w2.inField b with lalias := w2.lalias.set al (.fine i) }, Except.ok ())
      | none => (w2.inField b, Except.ok ())) = _
    cases (w2.lv i).ali with
    | none => rfl
    | some al => rfl
  · cases p
    · exact .pure w3 ()
    · exact populateHF_blind i w3

theorem levelsDel_blind (key : Str) (w : World) : Blind w (levelsDel key) := by
  intro b
  unfold levelsDel
  show (match w.g.removeNode key with
    | Except.ok g => ({ w.inField b with g := g }, Except.ok ())
    | Except.error e => (w.inField b, Except.error e)) = _
  rcases w.g.removeNode key with e | g <;> rfl

theorem setHLevel_blind (j : Nat) (v : ℚ) (w : World) : Blind w (setHLevel j v) := by
  intro b
  unfold setHLevel
  show (match w.hHz j with
    | Except.ok cur => _
    | Except.error e => (w.inField b, Except.error e)) = _
  rcases w.hHz j with e | cur <;> rfl

/-! ## Transitions -/

theorem trAddToAtom_blind (t : Nat) (w : World) : Blind w (trAddToAtom t) := by
  intro b
  unfold trAddToAtom
  simp only
  show (if (w.tr t).subKeys.length = 0 then _ else _) = _
  split_ifs <;> rfl

theorem newTransObj_blind (a b : Nat) (ali : Option Str) (w : World) : Blind w (newTransObj a b ali) := by
  intro B
  unfold newTransObj
  simp only
  set w' : World := { w with ntr := w.ntr + 1, tr := upd w.tr w.ntr ⟨a, b, if w.eHz b > w.eHz a then a else b,
    if w.eHz b > w.eHz a then b else a, false, none, (false, false, false), none, ali, []⟩ } with hw'
  show (if (w.lv a).inAtom = true then match trAddToAtom w.ntr (w'.inField B) with
      | (w'', Except.ok ()) => (w'', Except.ok w.ntr)
      | (w'', Except.error e) => (w'', Except.error e)
    else (w'.inField B, Except.ok w.ntr)) = _
  split_ifs
  · rw [trAddToAtom_blind w.ntr w']
    rcases trAddToAtom w.ntr w' with ⟨w2, e | u⟩ <;> rfl
  · rfl

theorem attrsTail_blind (t : Nat) (w : World) : Blind w (attrsTail t) := by
  intro b
  unfold attrsTail
  show (match (w.tr t).ali with
    | none => (w.inField b, Except.ok ())
    | some s => if (w.lv (w.tr t).e1).inAtom = true then ({ w.inField b with talias := w.talias.set s t }, Except.ok ())
      else (w.inField b, Except.error PyErr.AttributeError)) = _
  rcases (w.tr t).ali with _ | s
  · rfl
  · simp only
    split_ifs <;> rfl

theorem newTransAttrs_blind (t : Nat) (f : Option ℚ) (A : AArg) (w : World) : Blind w (newTransAttrs t f A) := by
  by_cases hA : ∀ e, A ≠ .bad e
  · intro b
    rw [newTransAttrs_eq _ _ _ _ hA, newTransAttrs_eq _ _ _ _ hA]
    have e : (w.inField b).transAllowed ((w.inField b).tr t).e1 ((w.inField b).tr t).e2 = w.transAllowed (w.tr t).e1 (w.tr t).e2 := rfl
    rw [e]
    rcases w.transAllowed (w.tr t).e1 (w.tr t).e2 with e | al
    · rfl
    · exact attrsTail_blind t (w.setTr t { w.tr t with built := true, A := A.rate, allowed := al, setFreq := f }) b
  · cases A with
    | bad e => exact fun b => rfl
    | none => exact absurd (fun e h => by cases h) hA
    | hz q => exact absurd (fun e h => by cases h) hA

theorem newTrans_blind (a b : Nat) (f : Option ℚ) (A : AArg) (ali : Option Str) (w : World) : Blind w (World.newTrans a b f A ali) := by
  unfold World.newTrans
  exact Blind.bind (newTransObj_blind a b ali w) fun t w1 _ => Blind.bind (newTransAttrs_blind t f A w1) fun _ w2 _ => .pure w2 _

/-! ## Enforcement -/

theorem setEdgesL_field (w : World) (b : ℚ) (l : List ((Str × Str) × Nat)) : setEdgesL (w.inField b) l = setEdgesL w l := by
  induction l with
  | nil => rfl
  | cons q l ih =>
    obtain ⟨e, t⟩ := q
    unfold setEdgesL
    rw [ih]
    rfl

theorem lowestLoop_field (w : World) (b : ℚ) (l : List (Str × Option Nat)) (cur : Option Nat) (n : Option Str) :
    lowestLoop (w.inField b) l cur n = lowestLoop w l cur n := by
  induction l generalizing cur n with
  | nil => rfl
  | cons q l ih =>
    obtain ⟨m, o⟩ := q
    cases cur with
    | none => unfold lowestLoop; exact ih _ _
    | some cu =>
      cases o with
      | none => rfl
      | some i =>
        unfold lowestLoop
        rw [ih, ih]
        rfl

theorem enfEdge_blind (u v : Str) (w : World) : Blind w (enfEdge u v) := by
  intro b
  unfold enfEdge
  show (match w.g.adj u v with
    | none => (w.inField b, Except.error PyErr.KeyError)
    | some t => _) = _
  rcases w.g.adj u v with _ | t
  · rfl
  simp only
  show (match (w.tr t).setFreq with
    | none => (w.inField b, Except.error PyErr.AttributeError)
    | some f => _) = _
  rcases (w.tr t).setFreq with _ | f
  · rfl
  simp only
  refine Prod.ext ?_ rfl
  show World.setFixed (World.setFixed (if (w.lv (w.tr t).lower).fixed = true ∧ (w.lv (w.tr t).upper).fixed = true ∧
      f ≠ |w.eHz (w.tr t).lower - w.eHz (w.tr t).upper| then { w.inField b with warned := w.warned + 1 }
    else if (w.lv (w.tr t).upper).fixed = true then (w.inField b).setE (w.tr t).lower (w.eHz (w.tr t).upper - f)
    else (w.inField b).setE (w.tr t).upper (w.eHz (w.tr t).lower + f)) (w.tr t).upper true) (w.tr t).lower true = _
  split_ifs <;> rfl

theorem enfEdges_blind (l : List (Str × Str)) (w : World) : Blind w (enfEdges l) := by
  induction l generalizing w with
  | nil => exact .pure w ()
  | cons q l ih =>
    obtain ⟨u, v⟩ := q
    unfold enfEdges
    exact Blind.bind (enfEdge_blind u v w) fun _ w1 _ => ih w1

theorem enfComp_blind (σ : Ord') (es : List (Str × Str)) (d : List Str) (w : World) : Blind w (enfComp σ es d) := by
  intro b
  unfold enfComp
  rw [lowestLoop_field]
  show (match lowestLoop w (withLevels w.g (σ (.low d) d)) none none with
    | Except.error e => (w.inField b, Except.error e)
    | Except.ok none => (w.inField b, Except.ok ())
    | Except.ok (some s) => enfEdges (Graph.dfsEdges d (fun n => σ (.nbrs d n) (subNbrs w.g es n)) s) (w.inField b)) = _
  rcases lowestLoop w (withLevels w.g (σ (.low d) d)) none none with e | _ | s
  · rfl
  · rfl
  · exact enfEdges_blind _ w b

theorem enfComps_blind (σ : Ord') (es : List (Str × Str)) (trig : Option (Str × Str)) (ds : List (List Str)) (w : World) :
    Blind w (enfComps σ es trig ds) := by
  induction ds generalizing w with
  | nil => exact .pure w ()
  | cons d ds ih =>
    intro b
    unfold enfComps
    show (if triggered w.g es d trig then _ else _) = _
    by_cases h : triggered w.g es d trig = true
    · rw [if_pos h, if_pos h]
      exact Blind.bind (enfComp_blind σ es d w) (fun _ w1 _ => ih w1) b
    · rw [if_neg h, if_neg h]
      exact ih w b

theorem enforce_blind (σ : Ord') (trig : Option (Str × Str)) (w : World) : Blind w (enforce σ trig) := by
  intro b
  unfold enforce
  have : (w.inField b).setEdges = w.setEdges := setEdgesL_field w b _
  rw [this]
  rcases w.setEdges with e | es
  · rfl
  · exact enfComps_blind σ es trig _ w b

theorem setFrequency_blind (σ : Ord') (t : Nat) (f : ℚ) (w : World) : Blind w (setFrequency σ t f) := by
  intro b
  unfold setFrequency
  show (if (w.tr t).built then _ else _) = _
  by_cases hb : (w.tr t).built = true
  · rw [if_pos hb, if_pos hb]
    simp only
    set w1 := if truthy (w.tr t).setFreq = true ∧ (w.lv (w.tr t).upper).fixed = true ∧ (w.lv (w.tr t).lower).fixed = true
      then w.setFixed (w.tr t).upper false else w with hw1
    have e1 : (if truthy ((w.inField b).tr t).setFreq = true ∧ ((w.inField b).lv ((w.inField b).tr t).upper).fixed = true ∧
        ((w.inField b).lv ((w.inField b).tr t).lower).fixed = true then (w.inField b).setFixed ((w.inField b).tr t).upper false
        else w.inField b) = w1.inField b := by
      rw [hw1]
      show (if truthy (w.tr t).setFreq = true ∧ (w.lv (w.tr t).upper).fixed = true ∧ (w.lv (w.tr t).lower).fixed = true
        then (w.inField b).setFixed (w.tr t).upper false else w.inField b) = _
      split_ifs <;> rfl
    rw [e1]
    show (if ((w1.setTr t { w1.tr t with setFreq := some f }).lv ((w1.setTr t { w1.tr t with setFreq := some f }).tr t).e1).inAtom = true
      then enforce σ (some _) ((w1.setTr t { w1.tr t with setFreq := some f }).inField b)
      else ((w1.setTr t { w1.tr t with setFreq := some f }).inField b, Except.error PyErr.AttributeError)) = _
    set w2 := w1.setTr t { w1.tr t with setFreq := some f }
    by_cases h : (w2.lv (w2.tr t).e1).inAtom = true
    · rw [if_pos h, if_pos h]
      exact enforce_blind σ _ w2 b
    · rw [if_neg h, if_neg h]
  · rw [if_neg hb, if_neg hb]

theorem addTransition_blind (σ : Ord') (t : Nat) (w : World) : Blind w (addTransition σ t) := by
  unfold addTransition
  refine Blind.bind (trAddToAtom_blind t w) fun _ w1 _ => Blind.bind ?_ fun _ w2 _ => ?_
  · intro b
    unfold regTAlias
    show (match (w1.tr t).ali with
      | some s => ({ w1.inField b with talias := w1.talias.set s t }, Except.ok ())
      | none => (w1.inField b, Except.ok ())) = _
    rcases (w1.tr t).ali with _ | s <;> rfl
  · intro b
    unfold enforceIfSet
    show (if (w2.tr t).built then match (w2.tr t).setFreq with
      | some _ => enforce σ none (w2.inField b)
      | none => (w2.inField b, Except.ok ())
      else (w2.inField b, Except.error PyErr.AttributeError)) = _
    split
    · rcases (w2.tr t).setFreq with _ | q
      · rfl
      · exact enforce_blind σ none w2 b
    · rfl

/-! ## Programs -/

/-- The same program with other values assigned to the field: `atom.B = x` becomes `atom.B = φ(x)`. -/
def Op.refield (φ : ℚ → ℚ) : Op → Op
  | .setB b => .setB (φ b)
  | op => op

/-- The call does not assign the energy of a Zeeman level. -/
def Op.NoZ : Op → Prop
  | .setZEnergy .. => False
  | _ => True

theorem op_blind {op : Op} (h : op.NoZ) (hb : ∀ b, op ≠ .setB b) (w : World) : Blind w op.run := by
  cases op with
  | newLevel t E l A B C ali => exact Blind.void (m := World.newLevel t E l A B C ali) fun b => rfl
  | addLevel i p ali => exact addLevel_blind i p ali w
  | setItem key i => exact addLevel_blind i false (some key) w
  | delItem key => exact levelsDel_blind key w
  | getLevel key => exact Blind.void (levelsGet_blind key w)
  | getSub r key => exact Blind.void (refItem_blind r key w)
  | setAlias r al => exact setAlias_blind r al w
  | setEnergy i v => exact fun b => rfl
  | setHEnergy j v => exact setHLevel_blind j v w
  | setZEnergy k v => exact h.elim
  | setConsts i l A B C => exact fun b => rfl
  | setQuad k q => exact fun b => rfl
  | setB b => exact absurd rfl (hb b)
  | newTrans a b f A ali => exact Blind.void (newTrans_blind a b f A ali w)
  | addTransition σ t => exact addTransition_blind σ t w
  | setFrequency σ t f => exact setFrequency_blind σ t f w
  | enforce σ => exact enforce_blind σ none w
  | fillSub t keys => exact fun b => rfl

/-- The full claim: for every program, other values of the field change no result, no exception, and nothing of the atom but the field. -/
def C159_full : Prop := ∀ (φ : ℚ → ℚ) (ops : List Op) (I B : ℚ),
  runAll (ops.map (Op.refield φ)) (emptyAtom I (φ B)) = (runAll ops (emptyAtom I B)).inField (φ (runAll ops (emptyAtom I B)).B)

/-- C159 for programs that assign no energies to Zeeman levels. -/
theorem C159_field_partial (φ : ℚ → ℚ) (ops : List Op) (h : ∀ op ∈ ops, op.NoZ) (w : World) :
    runAll (ops.map (Op.refield φ)) (w.inField (φ w.B)) = (runAll ops w).inField (φ (runAll ops w).B) ∧
    outcomes (ops.map (Op.refield φ)) (w.inField (φ w.B)) = outcomes ops w := by
  induction ops generalizing w with
  | nil => exact ⟨rfl, rfl⟩
  | cons op ops ih =>
    have hop : ((op.refield φ).run (w.inField (φ w.B))) = ((op.run w).1.inField (φ (op.run w).1.B), (op.run w).2) := by
      by_cases hb : ∃ b, op = .setB b
      · obtain ⟨b, rfl⟩ := hb
        rfl
      · have hb' : ∀ b, op ≠ .setB b := fun b e => hb ⟨b, e⟩
        have e : op.refield φ = op := by
          cases op with
          | setB b => exact absurd rfl (hb' b)
          | _ => rfl
        have hbl := op_blind (h op List.mem_cons_self) hb' w
        have hB : (op.run w).1.B = w.B := by
          have := congrArg (fun r => r.1.B) (hbl w.B)
          exact this
        rw [e, hbl, hB]
    obtain ⟨h1, h2⟩ := ih (fun o ho => h o (List.mem_cons_of_mem _ ho)) (op.run w).1
    refine ⟨?_, ?_⟩
    · show runAll (ops.map (Op.refield φ)) ((op.refield φ).run (w.inField (φ w.B))).1 = _
      rw [hop]
      exact h1
    · show ((op.refield φ).run (w.inField (φ w.B))).2 :: outcomes (ops.map (Op.refield φ)) ((op.refield φ).run (w.inField (φ w.B))).1 = _
      rw [hop]
      show _ = (op.run w).2 :: outcomes ops (op.run w).1
      rw [h2]
/-- What the field does: the energy of a Zeeman level changes by the linear and the quadratic term, and by nothing else. -/
theorem C159_energy (w : World) (b : ℚ) {k : Nat} {m e : ℚ} (hm : (w.zl k).term.mF = some m) (he : w.zHz k = .ok e) :
    (w.inField b).zHz k = .ok (e + (w.zl k).gF * m * muB * (b - w.B) + (w.zl k).quad * (b ^ 2 - w.B ^ 2)) := by
  have e1 : (w.inField b).hHz (w.zl k).parent = w.hHz (w.zl k).parent := rfl
  have e2 : (w.inField b).zl = w.zl := rfl
  unfold World.zHz zShiftHz at he ⊢
  rw [e2, e1]
  rw [hm] at he ⊢
  rcases hp : w.hHz (w.zl k).parent with e' | p
  · rw [hp] at he; simp [Bind.bind, Except.bind] at he
  · rw [hp] at he
    simp only [Bind.bind, Except.bind, Except.ok.injEq] at he ⊢
    rw [← he]
    unfold zShift
    show p + ((w.zl k).gF * m * muB * b + (w.zl k).quad * b ^ 2) = _
    ring

/-- Turning the field round turns the Zeeman levels of every hyperfine level round: in the opposite field the level with -m is where the level
with m was.  `w` is any state of any atom; with `C159_field_partial` for `φ = -` it is the state at the end of any program. -/
theorem C159_mirror_partial {w : World} (hr : Reachable w) {j : Nat} {k k' : Str} {z z' : Nat} {m : ℚ} (hz : (w.hf j).subs.get? k = some z)
    (hz' : (w.hf j).subs.get? k' = some z') (hm : (w.zl z).term.mF = some m) (hm' : (w.zl z').term.mF = some (-m))
    (hq : (w.zl z').quad = (w.zl z).quad) : (w.inField (-w.B)).zHz z' = w.zHz z := by
  obtain ⟨g, hg⟩ := hr.sameG j
  have p1 := (hr.subInv.subs.zlOf j k z hz).2.1
  have p2 := (hr.subInv.subs.zlOf j k' z' hz').2.1
  have g1 := (hg k z hz).2
  have g2 := (hg k' z' hz').2
  have e1 : (w.inField (-w.B)).hHz = w.hHz := rfl
  have e2 : (w.inField (-w.B)).zl = w.zl := rfl
  unfold World.zHz zShiftHz
  rw [e2, e1, hm, hm', p1, p2, g1, g2, hq]
  rcases w.hHz j with e | h
  · rfl
  · have : zShift g (-m) (w.zl z).quad (-w.B) = zShift g m (w.zl z).quad w.B := by
      unfold zShift
      ring
    show (Except.ok (h + zShift g (-m) (w.zl z).quad (-w.B)) : Py ℚ) = _
    rw [this]
    rfl

/-- The whole of it: a program, the same program with every field reversed, and the levels m and -m of a hyperfine level at their ends. -/
theorem C159_reversal_partial (ops : List Op) (h : ∀ op ∈ ops, op.NoZ) (I B : ℚ) (hs : SaneAll ops (emptyAtom I B)) {j : Nat} {k k' : Str}
    {z z' : Nat} {m : ℚ} (hz : ((runAll ops (emptyAtom I B)).hf j).subs.get? k = some z)
    (hz' : ((runAll ops (emptyAtom I B)).hf j).subs.get? k' = some z') (hm : ((runAll ops (emptyAtom I B)).zl z).term.mF = some m)
    (hm' : ((runAll ops (emptyAtom I B)).zl z').term.mF = some (-m))
    (hq : ((runAll ops (emptyAtom I B)).zl z').quad = ((runAll ops (emptyAtom I B)).zl z).quad) :
    (runAll (ops.map (Op.refield (- ·))) (emptyAtom I (-B))).zHz z' = (runAll ops (emptyAtom I B)).zHz z := by
  have e := (C159_field_partial (- ·) ops h (emptyAtom I B)).1
  rw [show (emptyAtom I B).inField (-(emptyAtom I B).B) = emptyAtom I (-B) from rfl] at e
  rw [e]
  exact C159_mirror_partial ((Reachable.empty I B).runAll hs) hz hz' hm hm' hq

/-- A level with J = 1/2 in an atom without nuclear spin, its two Zeeman levels made, in a field changed twice. -/
def fieldOps : List Op :=
  [.newLevel (demoTerm 'g') 0 2 0 0 0 none, .addLevel 0 false none, .setB 3, .getSub (.fine 0) "F=1/2".toList,
   .getSub (.hyp 0) "mF=1/2".toList, .setB 1]

/-- The hypotheses are met, and the two energies are neither zero nor each other's. -/
example :
    SaneAll fieldOps (emptyAtom 0 0) ∧
    ((runAll fieldOps (emptyAtom 0 0)).hf 0).subs.get? (mKey (-1/2)) = some 0 ∧
    ((runAll fieldOps (emptyAtom 0 0)).hf 0).subs.get? (mKey (1/2)) = some 1 ∧
    ((runAll fieldOps (emptyAtom 0 0)).zl 0).term.mF = some (-1/2) ∧ ((runAll fieldOps (emptyAtom 0 0)).zl 1).term.mF = some (1/2) ∧
    (runAll fieldOps (emptyAtom 0 0)).zHz 0 = .ok (-muB) ∧ (runAll fieldOps (emptyAtom 0 0)).zHz 1 = .ok muB := by
  decide +kernel

/-- An energy assigned to a Zeeman level moves its level by an amount that depends on the field. -/
theorem C159_fails : ¬C159_full := by
  intro h
  have h1 := h (- ·) (fieldOps ++ [Op.setZEnergy 0 0]) 0 0
  have h2 : (runAll ((fieldOps ++ [Op.setZEnergy 0 0]).map (Op.refield (- ·))) (emptyAtom 0 (-0))).eHz 0 =
    ((runAll (fieldOps ++ [Op.setZEnergy 0 0]) (emptyAtom 0 0)).inField _).eHz 0 := congrArg (fun w => w.eHz 0) h1
  revert h2
  rw [neg_zero]
  show ¬(_ = (runAll (fieldOps ++ [Op.setZEnergy 0 0]) (emptyAtom 0 0)).eHz 0)
  decide +kernel
end AtomTk
