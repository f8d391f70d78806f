import Verif.Props.Eager
import Verif.Props.NoMag

/-!
# C187: isotopes share their fine structure
-/

namespace AtomTk
open Util World

/-- The atom with another nuclear spin. -/
def World.spin (J : ℚ) (w : World) : World := { w with I := J }

/-- With another nuclear spin the call does the same and gives the same. -/
def Spins {α : Type} (J : ℚ) (w : World) (m : PyM α) : Prop := m (w.spin J) = ((m w).1.spin J, (m w).2)

variable {J : ℚ}

theorem Spins.bind {α β : Type} {w : World} {m : PyM α} {f : α → PyM β} (h : Spins J w m)
    (hf : ∀ a w1, m w = (w1, Except.ok a) → Spins J w1 (f a)) : Spins J w (m >>= f) := by
  unfold Spins at *
  rw [PyM.bind_def, PyM.bind_def, h]
  rcases hm : m w with ⟨w1, e | a⟩
  · rfl
  · exact hf a w1 hm

theorem Spins.get {β : Type} {w : World} {f : World → PyM β} (h : f (w.spin J) (w.spin J) = ((f w w).1.spin J, (f w w).2)) : Spins J w (PyM.get >>= f) := h
theorem Spins.const {α : Type} (w : World) (r : Py α) : Spins J w (PyM.lift r) := rfl
theorem Spins.raise {α : Type} (w : World) (e : PyErr) : Spins J w (PyM.raise e : PyM α) := rfl
theorem Spins.pure {α : Type} (w : World) (a : α) : Spins J w (Pure.pure a : PyM α) := rfl

theorem Spins.void {α : Type} {w : World} {m : PyM α} (h : Spins J w m) : Spins J w (Op.void m) := by
  unfold Spins Op.void at *
  rw [h]
  rcases m w with ⟨w1, e | a⟩ <;> rfl

theorem spin_setAlias (i : Nat) (al : Str) (w : World) : Spins J w (setAlias (.fine i) al) := by
  unfold Spins setAlias
  simp only
  show (if ((w.setLv i { w.lv i with ali := some al }).lv i).inAtom = true then _ else _) = _
  split_ifs <;> rfl

theorem spin_addLevel (i : Nat) (ali : Option Str) (w : World) : Spins J w (addLevel i false ali) := by
  unfold addLevel
  refine Spins.bind rfl fun _ w1 _ => Spins.bind ?_ fun _ w2 _ => Spins.bind ?_ fun _ w3 _ => ?_
  · cases ali with
    | none => exact .pure w1 ()
    | some al => exact spin_setAlias i al w1
  · unfold Spins regAlias
    show (match (w2.lv i).ali with
      | some al => ({ w2.spin J with lalias := w2.lalias.set al (.fine i) }, Except.ok ())
      | none => (w2.spin J, Except.ok ())) = _
    cases (w2.lv i).ali with
    | none => rfl
    | some al => rfl
  · exact .pure w3 ()

theorem levelsDel_spin (key : Str) (w : World) : Spins J w (levelsDel key) := by
  unfold Spins levelsDel
  show (match w.g.removeNode key with
    | Except.ok g => ({ (w.spin J) with g := g }, Except.ok ())
    | Except.error e => ((w.spin J), Except.error e)) = _
  rcases w.g.removeNode key with e | g <;> rfl

theorem trAddToAtom_spin (t : Nat) (w : World) : Spins J w (trAddToAtom t) := by
  unfold Spins trAddToAtom
  simp only
  show (if (w.tr t).subKeys.length = 0 then _ else _) = _
  split_ifs <;> rfl

theorem newTransObj_spin (a b : Nat) (ali : Option Str) (w : World) :
    Spins J w (newTransObj a b ali) := by
  unfold Spins newTransObj
  simp only
  set x : Trans := ⟨a, b, if w.eHz b > w.eHz a then a else b, if w.eHz b > w.eHz a then b else a, false, none, (false, false, false), none, ali, []⟩
    with hx
  have e : ({ (w.spin J) with ntr := w.ntr + 1, tr := upd w.tr w.ntr x } : World) =
      World.spin J { w with ntr := w.ntr + 1, tr := upd w.tr w.ntr x } := by
    rfl
  show (if (w.lv a).inAtom = true then
      match trAddToAtom w.ntr ({ (w.spin J) with ntr := w.ntr + 1, tr := upd w.tr w.ntr x } : World) with
      | (w'', Except.ok ()) => (w'', Except.ok w.ntr)
      | (w'', Except.error e) => (w'', Except.error e)
    else (({ (w.spin J) with ntr := w.ntr + 1, tr := upd w.tr w.ntr x } : World), Except.ok w.ntr)) = _
  rw [e]
  set w' : World := { w with ntr := w.ntr + 1, tr := upd w.tr w.ntr x } with hw'
  split_ifs
  · rw [trAddToAtom_spin w.ntr w']
    rcases trAddToAtom w.ntr w' with ⟨w2, e | u⟩ <;> rfl
  · rfl

theorem attrsTail_spin (t : Nat) (w : World) : Spins J w (attrsTail t) := by
  unfold Spins attrsTail
  show (match (w.tr t).ali with
    | none => ((w.spin J), Except.ok ())
    | some s => if (w.lv (w.tr t).e1).inAtom = true then ({ (w.spin J) with talias := w.talias.set s t }, Except.ok ())
      else ((w.spin J), Except.error PyErr.AttributeError)) = _
  rcases (w.tr t).ali with _ | s
  · rfl
  · simp only
    split_ifs <;> rfl

theorem newTransAttrs_spin (t : Nat) (f : Option ℚ) (A : AArg) (w : World) : Spins J w (newTransAttrs t f A) := by
  unfold Spins
  by_cases hA : ∀ e, A ≠ .bad e
  · rw [newTransAttrs_eq _ _ _ _ hA, newTransAttrs_eq _ _ _ _ hA]
    have e : (w.spin J).transAllowed ((w.spin J).tr t).e1 ((w.spin J).tr t).e2 = w.transAllowed (w.tr t).e1 (w.tr t).e2 := rfl
    rw [e]
    rcases w.transAllowed (w.tr t).e1 (w.tr t).e2 with e | al
    · rfl
    · exact attrsTail_spin t (w.setTr t { w.tr t with built := true, A := A.rate, allowed := al, setFreq := f })
  · cases A with
    | bad e => rfl
    | none => exact absurd (fun e h => by cases h) hA
    | hz q => exact absurd (fun e h => by cases h) hA

theorem newTrans_spin (a b : Nat) (f : Option ℚ) (A : AArg) (ali : Option Str) (w : World) : Spins J w (World.newTrans a b f A ali) := by
  unfold World.newTrans
  exact Spins.bind (newTransObj_spin a b ali w) fun t w1 _ => Spins.bind (newTransAttrs_spin t f A w1) fun _ w2 _ => Spins.pure w2 t

/-! ## Enforcement -/

theorem setEdgesL_spin (w : World) (l : List ((Str × Str) × Nat)) : setEdgesL (w.spin J) l = setEdgesL w l := by
  induction l with
  | nil => rfl
  | cons q l ih =>
    obtain ⟨e, t⟩ := q
    unfold setEdgesL
    rw [ih]
    rfl

theorem lowestLoop_spin (w : World) (l : List (Str × Option Nat)) (cur : Option Nat) (n : Option Str) :
    lowestLoop (w.spin J) l cur n = lowestLoop w l cur n := by
  induction l generalizing cur n with
  | nil => rfl
  | cons q l ih =>
    obtain ⟨m, o⟩ := q
    cases cur with
    | none => unfold lowestLoop; exact ih _ _
    | some cu =>
      cases o with
      | none => rfl
      | some i =>
        unfold lowestLoop
        rw [ih, ih]
        rfl

theorem enfEdge_spin (u v : Str) (w : World) : Spins J w (enfEdge u v) := by
  unfold Spins enfEdge
  show (match w.g.adj u v with
    | none => ((w.spin J), Except.error PyErr.KeyError)
    | some t => _) = _
  rcases w.g.adj u v with _ | t
  · rfl
  simp only
  show (match (w.tr t).setFreq with
    | none => ((w.spin J), Except.error PyErr.AttributeError)
    | some f => _) = _
  rcases (w.tr t).setFreq with _ | f
  · rfl
  simp only
  refine Prod.ext ?_ rfl
  show World.setFixed (World.setFixed (if (w.lv (w.tr t).lower).fixed = true ∧ (w.lv (w.tr t).upper).fixed = true ∧
      f ≠ |w.eHz (w.tr t).lower - w.eHz (w.tr t).upper| then World.spin J { w with warned := w.warned + 1 }
    else if (w.lv (w.tr t).upper).fixed = true then (w.spin J).setE (w.tr t).lower (w.eHz (w.tr t).upper - f)
    else (w.spin J).setE (w.tr t).upper (w.eHz (w.tr t).lower + f)) (w.tr t).upper true) (w.tr t).lower true = _
  split_ifs <;> rfl

theorem enfEdges_spin (l : List (Str × Str)) (w : World) : Spins J w (enfEdges l) := by
  induction l generalizing w with
  | nil => exact .pure w ()
  | cons q l ih =>
    obtain ⟨u, v⟩ := q
    unfold enfEdges
    exact Spins.bind (enfEdge_spin u v w) fun _ w1 _ => ih w1

theorem enfComp_spin (σ : Ord') (es : List (Str × Str)) (d : List Str) (w : World) : Spins J w (enfComp σ es d) := by
  unfold Spins enfComp
  rw [lowestLoop_spin]
  show (match lowestLoop w (withLevels w.g (σ (.low d) d)) none none with
    | Except.error e => ((w.spin J), Except.error e)
    | Except.ok none => ((w.spin J), Except.ok ())
    | Except.ok (some s) => enfEdges (Graph.dfsEdges d (fun n => σ (.nbrs d n) (subNbrs w.g es n)) s) (w.spin J)) = _
  rcases lowestLoop w (withLevels w.g (σ (.low d) d)) none none with e | _ | s
  · rfl
  · rfl
  · exact enfEdges_spin _ w

theorem enfComps_spin (σ : Ord') (es : List (Str × Str)) (trig : Option (Str × Str)) (ds : List (List Str)) (w : World) :
    Spins J w (enfComps σ es trig ds) := by
  induction ds generalizing w with
  | nil => exact .pure w ()
  | cons d ds ih =>
    unfold Spins enfComps
    show (if triggered w.g es d trig then _ else _) = _
    by_cases h : triggered w.g es d trig = true
    · rw [if_pos h, if_pos h]
      exact Spins.bind (enfComp_spin σ es d w) (fun _ w1 _ => ih w1)
    · rw [if_neg h, if_neg h]
      exact ih w

theorem enforce_spin (σ : Ord') (trig : Option (Str × Str)) (w : World) : Spins J w (enforce σ trig) := by
  unfold Spins enforce
  have : (w.spin J).setEdges = w.setEdges := setEdgesL_spin w _
  rw [this]
  rcases w.setEdges with e | es
  · rfl
  · exact enfComps_spin σ es trig _ w

theorem setFrequency_spin (σ : Ord') (t : Nat) (f : ℚ) (w : World) : Spins J w (setFrequency σ t f) := by
  unfold Spins setFrequency
  show (if (w.tr t).built then _ else _) = _
  by_cases hb : (w.tr t).built = true
  · rw [if_pos hb, if_pos hb]
    simp only
    set w1 := if truthy (w.tr t).setFreq = true ∧ (w.lv (w.tr t).upper).fixed = true ∧ (w.lv (w.tr t).lower).fixed = true
      then w.setFixed (w.tr t).upper false else w with hw1
    have e1 : (if truthy ((w.spin J).tr t).setFreq = true ∧ ((w.spin J).lv ((w.spin J).tr t).upper).fixed = true ∧
        ((w.spin J).lv ((w.spin J).tr t).lower).fixed = true then (w.spin J).setFixed ((w.spin J).tr t).upper false
        else (w.spin J)) = (w1.spin J) := by
      rw [hw1]
      show (if truthy (w.tr t).setFreq = true ∧ (w.lv (w.tr t).upper).fixed = true ∧ (w.lv (w.tr t).lower).fixed = true
        then (w.spin J).setFixed (w.tr t).upper false else (w.spin J)) = _
      split_ifs <;> rfl
    rw [e1]
    have e2 : (w1.spin J).setTr t { (w1.spin J).tr t with setFreq := some f } = (w1.setTr t { w1.tr t with setFreq := some f }).spin J :=
      rfl
    rw [e2]
    set w2 := w1.setTr t { w1.tr t with setFreq := some f }
    show (if (w2.lv (w2.tr t).e1).inAtom = true then enforce σ (some _) (w2.spin J) else ((w2.spin J), Except.error PyErr.AttributeError)) = _
    by_cases h : (w2.lv (w2.tr t).e1).inAtom = true
    · rw [if_pos h, if_pos h]
      exact enforce_spin σ _ w2
    · rw [if_neg h, if_neg h]
  · rw [if_neg hb, if_neg hb]

theorem addTransition_spin (σ : Ord') (t : Nat) (w : World) : Spins J w (addTransition σ t) := by
  unfold addTransition
  refine Spins.bind (trAddToAtom_spin t w) fun _ w1 _ => Spins.bind ?_ fun _ w2 _ => ?_
  · unfold Spins regTAlias
    show (match (w1.tr t).ali with
      | some s => ({ (w1.spin J) with talias := w1.talias.set s t }, Except.ok ())
      | none => ((w1.spin J), Except.ok ())) = _
    rcases (w1.tr t).ali with _ | s <;> rfl
  · unfold Spins enforceIfSet
    show (if (w2.tr t).built then match (w2.tr t).setFreq with
      | some _ => enforce σ none (w2.spin J)
      | none => ((w2.spin J), Except.ok ())
      else ((w2.spin J), Except.error PyErr.AttributeError)) = _
    split
    · rcases (w2.tr t).setFreq with _ | q
      · rfl
      · exact enforce_spin σ none w2
    · rfl

/-! ## Programs -/

theorem op_spin {op : Op} (h : op.Fine) (w : World) : op.later.run (w.spin J) = ((op.later.run w).1.spin J, (op.later.run w).2) := by
  cases op with
  | newLevel t E l A B C ali => rfl
  | addLevel i p ali => exact spin_addLevel i ali w
  | setItem k i => exact spin_addLevel i (some k) w
  | delItem k => exact levelsDel_spin k w
  | setAlias r al => cases r with
    | fine i => exact spin_setAlias i al w
    | _ => exact h.elim
  | setEnergy i v => rfl
  | setConsts i l A B C => rfl
  | setB b => rfl
  | newTrans a b f A ali => exact Spins.void (newTrans_spin a b f A ali w)
  | addTransition σ t => exact addTransition_spin σ t w
  | setFrequency σ t f => exact setFrequency_spin σ t f w
  | enforce σ => exact enforce_spin σ none w
  | fillSub t keys => rfl
  | _ => exact h.elim

theorem runAll_spin (ops : List Op) (h : ∀ op ∈ ops, op.Fine) (w : World) :
    runAll (ops.map Op.later) (w.spin J) = (runAll (ops.map Op.later) w).spin J ∧ outcomes (ops.map Op.later) (w.spin J) = outcomes (ops.map Op.later) w := by
  induction ops generalizing w with
  | nil => exact ⟨rfl, rfl⟩
  | cons op ops ih =>
    have h0 := op_spin (J := J) (h op List.mem_cons_self) w
    obtain ⟨h1, h2⟩ := ih (fun o ho => h o (List.mem_cons_of_mem _ ho)) (op.later.run w).1
    refine ⟨?_, ?_⟩
    · show runAll (ops.map Op.later) (op.later.run (w.spin J)).1 = _
      rw [h0]
      exact h1
    · show (op.later.run (w.spin J)).2 :: outcomes (ops.map Op.later) (op.later.run (w.spin J)).1 = _
      rw [h0]
      show _ = (op.later.run w).2 :: outcomes (ops.map Op.later) (op.later.run w).1
      rw [h2]

theorem later_later (ops : List Op) : SameLater (ops.map Op.later) ops := by
  unfold SameLater
  rw [List.map_map]
  refine List.map_congr_left fun op _ => ?_
  cases op <;> rfl

theorem fine_later {ops : List Op} (h : ∀ op ∈ ops, op.Fine) : ∀ op ∈ ops.map Op.later, op.Fine := by
  intro op ho
  obtain ⟨o, h1, rfl⟩ := List.mem_map.1 ho
  exact later_fine (h o h1)

/-- Two atoms with the same fine structure. -/
structure SameFine (w v : World) : Prop where
  names : v.levelNames = w.levelNames
  levels : ∀ i, v.eHz i = w.eHz i ∧ consts (v.lv i) = consts (w.lv i)
  trans : v.tr = w.tr
  freq : ∀ t, v.freqHz t = w.freqHz t
  links : v.g = w.g
  aliases : v.lalias = w.lalias ∧ v.talias = w.talias
  warned : v.warned = w.warned

/-- C187: the same program, which does not name sublevels, gives atoms of the same fine structure whatever the nuclear spin. -/
theorem C187_isotopes (ops : List Op) (h : ∀ op ∈ ops, op.Fine) (I I' B : ℚ) :
    SameFine (runAll ops (emptyAtom I B)) (runAll ops (emptyAtom I' B)) ∧ AgreeBut ops (outcomes ops (emptyAtom I B)) (outcomes ops (emptyAtom I' B)) := by
  obtain ⟨s1, s2⟩ := runAll_spin (J := I') ops h (emptyAtom I B)
  have e : (emptyAtom I B).spin I' = emptyAtom I' B := rfl
  rw [e] at s1 s2
  obtain ⟨a1, a2, a3, a4, a5, a6, a7, a8⟩ := C183_same (ops.map Op.later) ops (emptyAtom I B) (later_later ops) (fine_later h) h
  obtain ⟨b1, b2, b3, b4, b5, b6, b7, b8⟩ := C183_same (ops.map Op.later) ops (emptyAtom I' B) (later_later ops) (fine_later h) h
  rw [s1] at b1 b2 b3 b4 b5 b6 b7 b8
  refine ⟨⟨b1.trans a1.symm, fun i => ⟨(b2 i).1.trans (a2 i).1.symm, (b2 i).2.trans (a2 i).2.symm⟩, b3.trans a3.symm, fun t => (b4 t).trans (a4 t).symm,
    b5.trans a5.symm, ⟨b6.trans a6.symm, b7.trans a7.symm⟩, b8.trans a8.symm⟩, ?_⟩
  have r1 := (runAll_later ops h (Alike.refl (emptyAtom I B))).2
  have r2 := (runAll_later ops h (Alike.refl (emptyAtom I' B))).2
  rw [s2] at r2
  exact r1.join rfl r2

/-- C187: if moreover the sublevels that `add_level` is told to make can be made, all calls return and raise the same. -/
theorem C187_results (ops : List Op) (h : ∀ op ∈ ops, op.Fine) (I I' B : ℚ) (hc : CanMake ops (emptyAtom I B)) (hc' : CanMake ops (emptyAtom I' B)) :
    outcomes ops (emptyAtom I' B) = outcomes ops (emptyAtom I B) :=
  outcomes_eq rfl hc hc' (C187_isotopes ops h I I' B).2

/-- Two isotopes, of spin 0 and 3/2, of different numbers of hyperfine levels. -/
example : (∀ op ∈ laterOps true, op.Fine) ∧ (runAll (laterOps true) (emptyAtom 0 0)).nhf = 1 ∧ (runAll (laterOps true) (emptyAtom (3/2) 0)).nhf = 2 ∧
    (runAll (laterOps true) (emptyAtom 0 0)).freqHz 0 = 500 ∧ (runAll (laterOps true) (emptyAtom (3/2) 0)).freqHz 0 = 500 ∧
    outcomes (laterOps true) (emptyAtom 0 0) = outcomes (laterOps true) (emptyAtom (3/2) 0) :=
  ⟨laterOps_fine true, by decide +kernel, by decide +kernel, by decide +kernel, by decide +kernel, by decide +kernel⟩

end AtomTk
