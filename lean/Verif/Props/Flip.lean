import Verif.Props.Mute
import Verif.Props.SubEnds

/-!
# C186: which end of a transition is given first
-/

namespace AtomTk
open Util World

/-- The atom with the ends `E_1`, `E_2` of some of its transitions exchanged. -/
def World.flip (S : Nat → Bool) (w : World) : World :=
  { w with tr := fun k => { w.tr k with e1 := if S k then (w.tr k).e2 else (w.tr k).e1, e2 := if S k then (w.tr k).e1 else (w.tr k).e2 } }

/-- With these ends exchanged the call does the same and gives the same. -/
def Flips {α : Type} (S : Nat → Bool) (w : World) (m : PyM α) : Prop := m (w.flip S) = ((m w).1.flip S, (m w).2)

variable {S : Nat → Bool}

theorem Flips.bind {α β : Type} {w : World} {m : PyM α} {f : α → PyM β} (h : Flips S w m)
    (hf : ∀ a w1, m w = (w1, Except.ok a) → Flips S w1 (f a)) : Flips S w (m >>= f) := by
  unfold Flips at *
  rw [PyM.bind_def, PyM.bind_def, h]
  rcases hm : m w with ⟨w1, e | a⟩
  · rfl
  · exact hf a w1 hm

theorem Flips.get {β : Type} {w : World} {f : World → PyM β} (h : f (w.flip S) (w.flip S) = ((f w w).1.flip S, (f w w).2)) : Flips S w (PyM.get >>= f) := h
theorem Flips.const {α : Type} (w : World) (r : Py α) : Flips S w (PyM.lift r) := rfl
theorem Flips.raise {α : Type} (w : World) (e : PyErr) : Flips S w (PyM.raise e : PyM α) := rfl
theorem Flips.pure {α : Type} (w : World) (a : α) : Flips S w (Pure.pure a : PyM α) := rfl

theorem Flips.void {α : Type} {w : World} {m : PyM α} (h : Flips S w m) : Flips S w (Op.void m) := by
  unfold Flips Op.void at *
  rw [h]
  rcases m w with ⟨w1, e | a⟩ <;> rfl

theorem upd_flip (w : World) (t : Nat) (x : Trans) : (w.flip S).setTr t { x with e1 := if S t then x.e2 else x.e1, e2 := if S t then x.e1 else x.e2 } =
    (w.setTr t x).flip S := by
  unfold World.flip World.setTr
  simp only [World.mk.injEq, true_and, and_true]
  funext k
  by_cases h : k = t
  · subst h; simp
  · simp [upd_ne _ _ _ h]

/-! ## Populating and looking up -/

theorem popHF1_flip (i : Nat) (f : ℚ) (w : World) : Flips S w (popHF1 i f) := by
  unfold Flips popHF1
  have e1 : (w.flip S).lv = w.lv := rfl
  have e2 : (w.flip S).I = w.I := rfl
  simp only [e1, e2]
  rcases (w.lv i).term.makeCopy (.num f) .none with e | t
  · rfl
  · simp only
    rcases t.J with _ | J
    · rfl
    rcases t.F with _ | F
    · rfl
    simp only
    rcases compGF (w.lv i).lande w.I J F with e | g <;> rfl

theorem popZ1_flip (j : Nat) (m : ℚ) (w : World) : Flips S w (popZ1 j m) := by
  unfold Flips popZ1
  have e1 : (w.flip S).lv = w.lv := rfl
  have e2 : (w.flip S).I = w.I := rfl
  have e3 : (w.flip S).hf = w.hf := rfl
  simp only [e1, e2, e3]
  rcases (w.hf j).term.makeCopy .none (.num m) with e | t
  · rfl
  · simp only
    rcases t.J with _ | J
    · rfl
    rcases t.F with _ | F
    · rfl
    simp only
    rcases compGF (w.lv (w.hf j).parent).lande w.I J F with e | g <;> rfl

theorem popHFs_flip (i : Nat) (l : List ℚ) (w : World) : Flips S w (popHFs i l) := by
  induction l generalizing w with
  | nil => exact .pure w ()
  | cons f fs ih =>
    unfold popHFs
    exact Flips.bind (popHF1_flip i f w) fun _ w1 _ => ih w1

theorem populateHF_flip (i : Nat) (w : World) : Flips S w (populateHF i) := by
  unfold Flips populateHF
  show (if (w.lv i).inAtom then match (w.lv i).term.J with
    | some J => popHFs i (hfFs w.I J) (w.flip S)
    | none => ((w.flip S), Except.error PyErr.TypeError)
    else ((w.flip S), Except.ok ())) = _
  split
  · cases (w.lv i).term.J with
    | none => rfl
    | some J => exact popHFs_flip i _ w
  · rfl

theorem lazyHF_flip (i : Nat) (w : World) : Flips S w (lazyHF i) := by
  unfold Flips lazyHF
  show (if (w.lv i).subs.length = 0 then
    if (w.lv i).inAtom then populateHF i (w.flip S) else ((w.flip S), Except.error PyErr.AttributeError)
    else ((w.flip S), Except.ok ())) = _
  split_ifs
  · exact populateHF_flip i w
  · rfl
  · rfl

theorem popZs_flip (j : Nat) (l : List ℚ) (w : World) : Flips S w (popZs j l) := by
  induction l generalizing w with
  | nil => exact .pure w ()
  | cons f fs ih =>
    unfold popZs
    exact Flips.bind (popZ1_flip j f w) fun _ w1 _ => ih w1

theorem lazyZ_flip (j : Nat) (w : World) : Flips S w (lazyZ j) := by
  unfold Flips lazyZ
  show (if (w.hf j).subs.length = 0 then match (w.hf j).term.F with
    | some F => popZs j (zMs F) (w.flip S)
    | none => ((w.flip S), Except.error PyErr.TypeError)
    else ((w.flip S), Except.ok ())) = _
  split
  · cases (w.hf j).term.F with
    | none => rfl
    | some F => exact popZs_flip j _ w
  · rfl

theorem hfItem_flip (j : Nat) (key : Str) (w : World) : Flips S w (hfItem j key) := by
  unfold hfItem
  refine Flips.bind (lazyZ_flip j w) fun _ w1 _ => Flips.get ?_
  show (if w1.I = 0 ∧ isIn mJtxt key = true then _ else _ : PyM Nat) _ = _
  split_ifs <;> rfl

theorem lvItem_flip (i : Nat) (key : Str) (w : World) : Flips S w (lvItem i key) := by
  unfold lvItem
  refine Flips.bind (lazyHF_flip i w) fun _ w1 _ => Flips.get ?_
  show (if w1.I = 0 ∧ isIn mJtxt key = true then _ else _ : PyM Ref) _ = _
  split_ifs
  · exact Flips.bind (Flips.const w1 ((w1.lv i).subs.getE (Term.fEq ++ jFrac (w1.lv i).term)))
      (fun j w2 _ => Flips.bind (hfItem_flip j _ w2) fun k w3 _ => Flips.pure w3 (Ref.zee k))
  · exact Flips.bind (Flips.const w1 ((w1.lv i).subs.getE key)) (fun j w2 _ => Flips.pure w2 (Ref.hyp j))

theorem refItem_flip (r : Ref) (key : Str) (w : World) : Flips S w (refItem r key) := by
  unfold refItem
  cases r with
  | fine i => exact lvItem_flip i key w
  | hyp j => exact Flips.bind (hfItem_flip j key w) fun k w1 _ => Flips.pure w1 (Ref.zee k)
  | zee k => exact Flips.raise w _

theorem levelsGet_flip (key : Str) (w : World) : Flips S w (levelsGet key) := by
  unfold levelsGet
  refine Flips.get ?_
  show (match w.lalias.get? key with
    | some r => (Pure.pure r : PyM Ref)
    | none => _) (w.flip S) = _
  rcases w.lalias.get? key with _ | r
  on_goal 2 => rfl
  simp only
  split_ifs
  · rcases rsplit spc 2 key with _ | ⟨x, _ | ⟨y, _ | ⟨z, _ | ⟨u, l⟩⟩⟩⟩
    · rfl
    · rfl
    · rfl
    · exact Flips.bind (Flips.const w (w.g.levelAttrs.getE x)) (fun i w1 _ => Flips.bind (lvItem_flip i y w1) fun r w2 _ =>
        refItem_flip r z w2)
    · rfl
  · rcases rsplit spcMJ 1 key with _ | ⟨x, _ | ⟨y, _ | ⟨z, l⟩⟩⟩
    · rfl
    · rfl
    · exact Flips.bind (Flips.const w (w.g.levelAttrs.getE x)) (fun i w1 _ => Flips.bind (lvItem_flip i _ w1) fun r w2 _ =>
        refItem_flip r _ w2)
    · rfl
  · rcases rsplit spc 1 key with _ | ⟨x, _ | ⟨y, _ | ⟨z, l⟩⟩⟩
    · rfl
    · rfl
    · exact Flips.bind (Flips.const w (w.g.levelAttrs.getE x)) (fun i w1 _ => lvItem_flip i y w1)
    · rfl
  · exact Flips.bind (Flips.const w (w.g.levelAttrs.getE key)) (fun i w1 _ => Flips.pure w1 (Ref.fine i))

/-! ## Containers -/

theorem setAlias_flip (r : Ref) (al : Str) (w : World) : Flips S w (setAlias r al) := by
  unfold Flips setAlias
  cases r with
  | fine i =>
    simp only
    show (if ((w.setLv i { w.lv i with ali := some al }).lv i).inAtom = true then _ else _) = _
    split_ifs <;> rfl
  | hyp j => rfl
  | zee k => rfl

theorem addLevel_flip (i : Nat) (p : Bool) (ali : Option Str) (w : World) : Flips S w (addLevel i p ali) := by
  unfold addLevel
  refine Flips.bind ?_ fun _ w1 _ => Flips.bind ?_ fun _ w2 _ => Flips.bind ?_ fun _ w3 _ => ?_
  · rfl
  · cases ali with
    | none => exact .pure w1 ()
    | some al => exact setAlias_flip (.fine i) al w1
  · unfold Flips regAlias
    show (match (w2.lv i).ali with
      | some al => ({ (w2.flip S) with lalias := w2.lalias.set al (.fine i) }, Except.ok ())
      | none => ((w2.flip S), Except.ok ())) = _
    cases (w2.lv i).ali with
    | none => rfl
    | some al => rfl
  · cases p
    · exact .pure w3 ()
    · exact populateHF_flip i w3

theorem levelsDel_flip (key : Str) (w : World) : Flips S w (levelsDel key) := by
  unfold Flips levelsDel
  show (match w.g.removeNode key with
    | Except.ok g => ({ (w.flip S) with g := g }, Except.ok ())
    | Except.error e => ((w.flip S), Except.error e)) = _
  rcases w.g.removeNode key with e | g <;> rfl

theorem setHLevel_flip (j : Nat) (v : ℚ) (w : World) : Flips S w (setHLevel j v) := by
  unfold Flips setHLevel
  show (match w.hHz j with
    | Except.ok cur => ((w.flip S).setE (w.hf j).parent (w.eHz (w.hf j).parent + (v - cur)), Except.ok ())
    | Except.error e => ((w.flip S), Except.error e)) = _
  rcases w.hHz j with e | cur
  · rfl
  · rfl

theorem setZLevel_flip (k : Nat) (v : ℚ) (w : World) : Flips S w (setZLevel k v) := by
  unfold Flips setZLevel
  have e1 : (w.flip S).zHz k = w.zHz k := rfl
  have e2 : (w.flip S).zl = w.zl := rfl
  have e3 : ∀ j, (w.flip S).hHz j = w.hHz j := fun _ => rfl
  simp only [e1, e2, e3]
  rcases w.zHz k with e | cur
  · rfl
  · rcases w.hHz (w.zl k).parent with e | q
    · rfl
    · exact setHLevel_flip _ _ w

/-! ## Transitions -/

theorem trAddToAtom_flip (t : Nat) (w : World) : Flips S w (trAddToAtom t) := by
  unfold Flips trAddToAtom
  simp only
  show (if (w.tr t).subKeys.length = 0 then _ else _) = _
  split_ifs <;> rfl

/-! ## Enforcement -/

theorem setEdgesL_flip (w : World) (l : List ((Str × Str) × Nat)) : setEdgesL (w.flip S) l = setEdgesL w l := by
  induction l with
  | nil => rfl
  | cons q l ih =>
    obtain ⟨e, t⟩ := q
    unfold setEdgesL
    rw [ih]
    rfl

theorem lowestLoop_flip (w : World) (l : List (Str × Option Nat)) (cur : Option Nat) (n : Option Str) :
    lowestLoop (w.flip S) l cur n = lowestLoop w l cur n := by
  induction l generalizing cur n with
  | nil => rfl
  | cons q l ih =>
    obtain ⟨m, o⟩ := q
    cases cur with
    | none => unfold lowestLoop; exact ih _ _
    | some cu =>
      cases o with
      | none => rfl
      | some i =>
        unfold lowestLoop
        rw [ih, ih]
        rfl

theorem enfEdge_flip (u v : Str) (w : World) : Flips S w (enfEdge u v) := by
  unfold Flips enfEdge
  show (match w.g.adj u v with
    | none => ((w.flip S), Except.error PyErr.KeyError)
    | some t => _) = _
  rcases w.g.adj u v with _ | t
  · rfl
  simp only
  show (match (w.tr t).setFreq with
    | none => ((w.flip S), Except.error PyErr.AttributeError)
    | some f => _) = _
  rcases (w.tr t).setFreq with _ | f
  · rfl
  simp only
  refine Prod.ext ?_ rfl
  show World.setFixed (World.setFixed (if (w.lv (w.tr t).lower).fixed = true ∧ (w.lv (w.tr t).upper).fixed = true ∧
      f ≠ |w.eHz (w.tr t).lower - w.eHz (w.tr t).upper| then World.flip S { w with warned := w.warned + 1 }
    else if (w.lv (w.tr t).upper).fixed = true then (w.flip S).setE (w.tr t).lower (w.eHz (w.tr t).upper - f)
    else (w.flip S).setE (w.tr t).upper (w.eHz (w.tr t).lower + f)) (w.tr t).upper true) (w.tr t).lower true = _
  split_ifs <;> rfl

theorem enfEdges_flip (l : List (Str × Str)) (w : World) : Flips S w (enfEdges l) := by
  induction l generalizing w with
  | nil => exact .pure w ()
  | cons q l ih =>
    obtain ⟨u, v⟩ := q
    unfold enfEdges
    exact Flips.bind (enfEdge_flip u v w) fun _ w1 _ => ih w1

theorem enfComp_flip (σ : Ord') (es : List (Str × Str)) (d : List Str) (w : World) : Flips S w (enfComp σ es d) := by
  unfold Flips enfComp
  rw [lowestLoop_flip]
  show (match lowestLoop w (withLevels w.g (σ (.low d) d)) none none with
    | Except.error e => ((w.flip S), Except.error e)
    | Except.ok none => ((w.flip S), Except.ok ())
    | Except.ok (some s) => enfEdges (Graph.dfsEdges d (fun n => σ (.nbrs d n) (subNbrs w.g es n)) s) (w.flip S)) = _
  rcases lowestLoop w (withLevels w.g (σ (.low d) d)) none none with e | _ | s
  · rfl
  · rfl
  · exact enfEdges_flip _ w

theorem enfComps_flip (σ : Ord') (es : List (Str × Str)) (trig : Option (Str × Str)) (ds : List (List Str)) (w : World) :
    Flips S w (enfComps σ es trig ds) := by
  induction ds generalizing w with
  | nil => exact .pure w ()
  | cons d ds ih =>
    unfold Flips enfComps
    show (if triggered w.g es d trig then _ else _) = _
    by_cases h : triggered w.g es d trig = true
    · rw [if_pos h, if_pos h]
      exact Flips.bind (enfComp_flip σ es d w) (fun _ w1 _ => ih w1)
    · rw [if_neg h, if_neg h]
      exact ih w

theorem enforce_flip (σ : Ord') (trig : Option (Str × Str)) (w : World) : Flips S w (enforce σ trig) := by
  unfold Flips enforce
  have : (w.flip S).setEdges = w.setEdges := setEdgesL_flip w _
  rw [this]
  rcases w.setEdges with e | es
  · rfl
  · exact enfComps_flip σ es trig _ w

theorem enfComps_trig {σ : Ord'} {es : List (Str × Str)} {g : Graph} {p q : Option (Str × Str)} {cs : List (List Str)}
    (h : ∀ c ∈ cs, triggered g es c p = triggered g es c q) {w : World} (hg : w.g = g) : enfComps σ es p cs w = enfComps σ es q cs w := by
  induction cs generalizing w with
  | nil => rfl
  | cons c cs ih =>
    have h1 := h c List.mem_cons_self
    have h2 : ∀ {w : World}, w.g = g → enfComps σ es p cs w = enfComps σ es q cs w := fun hg => ih (fun d hd => h d (List.mem_cons_of_mem _ hd)) hg
    unfold enfComps
    rw [hg, h1]
    split
    · rcases hm : enfComp σ es c w with ⟨w1, e | u⟩
      · rw [PyM.bind_err hm, PyM.bind_err hm]
      · rw [PyM.bind_ok hm, PyM.bind_ok hm]
        have := (enfComp_frame σ es c w).g
        rw [hm] at this
        exact h2 (this.trans hg)
    · exact h2 hg

/-- Enforcement is triggered by a transition whichever of its ends comes first. -/
theorem enforce_swap {w : World} (hw : WF w) {σ : Ord'} (hσ : Shuffles σ) (u v : Str) : enforce σ (some (u, v)) w = enforce σ (some (v, u)) w := by
  obtain ⟨es, h1, hes, cs, rfl, h2, -, -⟩ := set_comps hw hσ
  unfold enforce
  rw [h1]
  refine enfComps_trig (g := w.g) (fun c hc => ?_) rfl
  rw [Bool.eq_iff_iff, triggered_some hw hes, triggered_some hw hes]
  constructor
  · rintro ⟨g1, t, f, g2⟩
    exact ⟨(h2 c hc).closed g1 g2, t, f, g2.symm hw⟩
  · rintro ⟨g1, t, f, g2⟩
    exact ⟨(h2 c hc).closed g1 g2, t, f, g2.symm hw⟩

/-- The ends of every transition are levels of the atom. -/
def Housed (w : World) : Prop := ∀ t, (w.tr t).built = true →
  ((w.tr t).e1 < w.nlv ∧ (w.lv (w.tr t).e1).inAtom = true) ∧ ((w.tr t).e2 < w.nlv ∧ (w.lv (w.tr t).e2).inAtom = true)

theorem setFrequency_flip {w : World} (hw : WF w) (hh : Housed w) {σ : Ord'} (hσ : Shuffles σ) (t : Nat) (f : ℚ) : Flips S w (setFrequency σ t f) := by
  unfold Flips setFrequency
  show (if (w.tr t).built then _ else _) = _
  by_cases hb : (w.tr t).built = true
  · rw [if_pos hb, if_pos hb]
    simp only
    set w1 := if truthy (w.tr t).setFreq = true ∧ (w.lv (w.tr t).upper).fixed = true ∧ (w.lv (w.tr t).lower).fixed = true
      then w.setFixed (w.tr t).upper false else w with hw1
    have e1 : (if truthy ((w.flip S).tr t).setFreq = true ∧ ((w.flip S).lv ((w.flip S).tr t).upper).fixed = true ∧
        ((w.flip S).lv ((w.flip S).tr t).lower).fixed = true then (w.flip S).setFixed ((w.flip S).tr t).upper false
        else (w.flip S)) = w1.flip S := by
      rw [hw1]
      show (if truthy (w.tr t).setFreq = true ∧ (w.lv (w.tr t).upper).fixed = true ∧ (w.lv (w.tr t).lower).fixed = true
        then (w.flip S).setFixed (w.tr t).upper false else (w.flip S)) = _
      split_ifs <;> rfl
    rw [e1]
    have f1 : Frame w w1 := by
      rw [hw1]
      split
      · exact setFixed_frame ..
      · exact .refl w
    have e2 : (w1.flip S).setTr t { (w1.flip S).tr t with setFreq := some f } = (w1.setTr t { w1.tr t with setFreq := some f }).flip S :=
      upd_flip w1 t { w1.tr t with setFreq := some f }
    rw [e2]
    set w2 := w1.setTr t { w1.tr t with setFreq := some f } with hw2
    have f2 : Frame w w2 := Frame.trans _ _ _ f1 (setTr_frame w1 t _ ⟨rfl, rfl, rfl, rfl, rfl⟩)
    obtain ⟨g1, g2, -, -, -⟩ := f2.tr t
    have i1 : (w2.lv (w2.tr t).e1).inAtom = true := by rw [f2.inAtom, g1]; exact (hh t hb).1.2
    have i2 : (w2.lv (w2.tr t).e2).inAtom = true := by rw [f2.inAtom, g2]; exact (hh t hb).2.2
    rw [if_pos i1]
    show (if (w2.lv (if S t then (w2.tr t).e2 else (w2.tr t).e1)).inAtom = true then
      enforce σ (some (w2.lname (if S t then (w2.tr t).e2 else (w2.tr t).e1), w2.lname (if S t then (w2.tr t).e1 else (w2.tr t).e2))) (w2.flip S)
      else _) = _
    cases S t with
    | false => simp only [Bool.false_eq_true, if_false]; rw [if_pos i1]; exact enforce_flip σ _ w2
    | true =>
      simp only [if_true]
      rw [if_pos i2, enforce_swap (hw.frame f2) hσ (w2.lname (w2.tr t).e1)]
      exact enforce_flip σ _ w2
  · rw [if_neg hb, if_neg hb]

theorem addTransition_flip (σ : Ord') (t : Nat) (w : World) : Flips S w (addTransition σ t) := by
  unfold addTransition
  refine Flips.bind (trAddToAtom_flip t w) fun _ w1 _ => Flips.bind ?_ fun _ w2 _ => ?_
  · unfold Flips regTAlias
    show (match (w1.tr t).ali with
      | some s => ({ (w1.flip S) with talias := w1.talias.set s t }, Except.ok ())
      | none => ((w1.flip S), Except.ok ())) = _
    rcases (w1.tr t).ali with _ | s <;> rfl
  · unfold Flips enforceIfSet
    show (if (w2.tr t).built then match (w2.tr t).setFreq with
      | some _ => enforce σ none (w2.flip S)
      | none => ((w2.flip S), Except.ok ())
      else ((w2.flip S), Except.error PyErr.AttributeError)) = _
    split
    · rcases (w2.tr t).setFreq with _ | q
      · rfl
      · exact enforce_flip σ none w2
    · rfl


/-! ## Housed is kept -/

theorem Housed.frame {w w' : World} (h : Housed w) (hf : Frame w w') : Housed w' := by
  intro t ht
  obtain ⟨h1, h2, -, -, h5⟩ := hf.tr t
  rw [h1, h2, hf.nlv, hf.inAtom, hf.inAtom]
  exact h t (h5 ▸ ht)

theorem addLevel_housed {w : World} (h : Housed w) (i : Nat) (p : Bool) (ali : Option Str) : Housed (World.addLevel i p ali w).1 := by
  obtain ⟨w', h1, h2⟩ := addLevel_def i p ali w
  rw [h1]
  refine Housed.frame ?_ h2
  have key : ∀ k, (w.lv k).inAtom = true → ((lvAddToAtom i w).1.lv k).inAtom = true := by
    intro k hk
    show (upd w.lv i { w.lv i with inAtom := true } k).inAtom = true
    by_cases e : k = i
    · subst e; simp
    · rw [upd_ne _ _ _ e]; exact hk
  intro t ht
  exact ⟨⟨(h t ht).1.1, key _ (h t ht).1.2⟩, (h t ht).2.1, key _ (h t ht).2.2⟩

theorem step_housed {w : World} (hw : WF w) (h : Housed w) (op : Op) (hs : op.Sane w) : Housed (op.run w).1 := by
  cases op with
  | newLevel t E l A B C ali =>
    show Housed (Op.void _ w).1
    rw [Op.void_fst]
    intro s ht
    obtain ⟨⟨h1, h2⟩, h3, h4⟩ := h s ht
    refine ⟨⟨Nat.lt_succ_of_lt h1, ?_⟩, Nat.lt_succ_of_lt h3, ?_⟩
    · show (upd w.lv w.nlv _ (w.tr s).e1).inAtom = true
      rw [upd_ne _ _ _ (Nat.ne_of_lt h1)]; exact h2
    · show (upd w.lv w.nlv _ (w.tr s).e2).inAtom = true
      rw [upd_ne _ _ _ (Nat.ne_of_lt h3)]; exact h4
  | addLevel i p ali => exact addLevel_housed h i p ali
  | setItem key i => exact addLevel_housed h i false (some key)
  | delItem key =>
    show Housed (World.levelsDel key w).1
    unfold World.levelsDel
    split <;> exact h
  | getLevel key =>
    show Housed (Op.void _ w).1
    rw [Op.void_fst]
    exact h.frame (levelsGet_frame key w).frame
  | getSub r key =>
    show Housed (Op.void _ w).1
    rw [Op.void_fst]
    exact h.frame (refItem_frame r key w).frame
  | setAlias r al => exact h.frame (setAlias_frame r al w)
  | setEnergy i v => exact h.frame (setE_frame w i v)
  | setHEnergy j v => exact h.frame (setHLevel_frame j v w)
  | setZEnergy k v => exact h.frame (setZLevel_frame k v w)
  | setConsts i l A B C => exact h.frame (lvEdit_frame w i _ rfl rfl)
  | setQuad k q => exact h
  | setB b => exact h
  | newTrans a b f A ali =>
    show Housed (Op.void _ w).1
    rw [Op.void_fst]
    obtain ⟨ha, hb, hJ0, hJ1, hA⟩ := hs
    obtain ⟨J0, hJ0⟩ := Option.ne_none_iff_exists'.mp hJ0
    obtain ⟨J1, hJ1⟩ := Option.ne_none_iff_exists'.mp hJ1
    rw [newTrans_ok w a b f A ali J0 J1 (hw.node _ _ ha).2.1 hJ0 hJ1 hA]
    intro t
    show (upd w.tr w.ntr _ t).built = true → ((upd w.tr w.ntr _ t).e1 < w.nlv ∧ (w.lv (upd w.tr w.ntr _ t).e1).inAtom = true) ∧
      ((upd w.tr w.ntr _ t).e2 < w.nlv ∧ (w.lv (upd w.tr w.ntr _ t).e2).inAtom = true)
    by_cases e : t = w.ntr
    · subst e
      simp only [upd_same, finished]
      exact fun _ => ⟨⟨(hw.node _ _ ha).2.2, (hw.node _ _ ha).2.1⟩, (hw.node _ _ hb).2.2, (hw.node _ _ hb).2.1⟩
    · simp only [upd_ne _ _ _ e]
      exact h t
  | addTransition σ t =>
    refine Housed.frame ?_ (addTransition_frame σ t w)
    rw [trAddToAtom_fst]
    exact h
  | setFrequency σ t f => exact h.frame (setFrequency_frame σ t f w)
  | enforce σ => exact h.frame (enforce_frame σ none w)
  | fillSub t keys => exact h.frame (setTr_frame w t _ ⟨rfl, rfl, rfl, rfl, rfl⟩)

/-! ## Programs -/

/-- The call with the two levels in the other order, if it makes one of these transitions. -/
def Op.flip (S : Nat → Bool) (w : World) : Op → Op
  | .newTrans a b f A ali => if S w.ntr then .newTrans b a f A ali else .newTrans a b f A ali
  | op => op

/-- The program with the levels of the transitions `S` (in the order they are made) given in the other order. -/
def flipAll (S : Nat → Bool) : List Op → World → List Op
  | [], _ => []
  | op :: ops, w => op.flip S w :: flipAll S ops (op.run w).1

/-- The energies tell the ends of a new transition apart. -/
def Op.Tells (w : World) : Op → Prop
  | .newTrans a b .. => a = b ∨ w.eHz a ≠ w.eHz b
  | _ => True

/-- They do so throughout the program. -/
def TellsAll : List Op → World → Prop
  | [], _ => True
  | op :: ops, w => op.Tells w ∧ TellsAll ops (op.run w).1

/-- The order of iteration over sets is an order of their elements. -/
def Op.Orders : Op → Prop
  | .setFrequency σ .. => Shuffles σ
  | _ => True

theorem allowedTypes_swap (J0 J1 : ℚ) (p0 p1 : Int) (a b : Nat) :
    allowedTypes J1 J0 p1 p0 (decide (b = a)) = allowedTypes J0 J1 p0 p1 (decide (a = b)) := by
  unfold allowedTypes
  rw [abs_sub_comm]
  have h1 : decide (p1 ≠ p0) = decide (p0 ≠ p1) := by simp only [ne_comm]
  have h2 : decide (p1 = p0) = decide (p0 = p1) := by simp only [eq_comm]
  have h3 : decide (b = a) = decide (a = b) := by simp only [eq_comm]
  rw [h1, h2, h3]

theorem newTrans_flip {w : World} {a b : Nat} {f : Option ℚ} {A : AArg} {ali : Option Str} (ha : (w.lv a).inAtom = true) (hb : (w.lv b).inAtom = true)
    (hJa : (w.lv a).term.J ≠ none) (hJb : (w.lv b).term.J ≠ none) (hA : ∀ e, A ≠ .bad e) (ht : a = b ∨ w.eHz a ≠ w.eHz b) :
    World.newTrans (if S w.ntr then b else a) (if S w.ntr then a else b) f A ali (w.flip S) =
      ((World.newTrans a b f A ali w).1.flip S, (World.newTrans a b f A ali w).2) := by
  obtain ⟨J0, hJ0⟩ := Option.ne_none_iff_exists'.mp hJa
  obtain ⟨J1, hJ1⟩ := Option.ne_none_iff_exists'.mp hJb
  rw [newTrans_ok w a b f A ali J0 J1 ha hJ0 hJ1 hA]
  have put : ∀ x y : Trans, y = { x with e1 := if S w.ntr then x.e2 else x.e1, e2 := if S w.ntr then x.e1 else x.e2 } →
      upd (w.flip S).tr w.ntr y = (World.flip S { w with tr := upd w.tr w.ntr x }).tr := by
    rintro x y rfl
    exact congrArg World.tr (upd_flip w w.ntr x)
  cases hS : S w.ntr with
  | false =>
    simp only [Bool.false_eq_true, if_false]
    rw [newTrans_ok (w.flip S) a b f A ali J0 J1 ha hJ0 hJ1 hA]
    have := put (finished w a b f A ali J0 J1) (finished (w.flip S) a b f A ali J0 J1) (by rw [hS]; rfl)
    refine Prod.ext ?_ rfl
    show ({ w.flip S with ntr := w.ntr + 1, tr := upd (w.flip S).tr w.ntr (finished (w.flip S) a b f A ali J0 J1), g := _, talias := _ } : World) = _
    rw [this]
    rfl
  | true =>
    simp only [if_true]
    rw [newTrans_ok (w.flip S) b a f A ali J1 J0 hb hJ1 hJ0 hA]
    have lo : (if w.eHz a > w.eHz b then b else a) = if w.eHz b > w.eHz a then a else b := by
      rcases ht with rfl | ht
      · simp
      · rcases lt_or_gt_of_ne ht with h | h
        · rw [if_neg (not_lt.2 h.le), if_pos h]
        · rw [if_pos h, if_neg (not_lt.2 h.le)]
    have up : (if w.eHz a > w.eHz b then a else b) = if w.eHz b > w.eHz a then b else a := by
      rcases ht with rfl | ht
      · simp
      · rcases lt_or_gt_of_ne ht with h | h
        · rw [if_neg (not_lt.2 h.le), if_pos h]
        · rw [if_pos h, if_neg (not_lt.2 h.le)]
    have := put (finished w a b f A ali J0 J1) (finished (w.flip S) b a f A ali J1 J0) (by
      rw [hS]
      show (⟨b, a, if w.eHz a > w.eHz b then b else a, if w.eHz a > w.eHz b then a else b, true, A.rate,
        allowedTypes J1 J0 (w.lv b).term.parity (w.lv a).term.parity (decide (b = a)), f, ali, []⟩ : Trans) = _
      rw [lo, up, allowedTypes_swap]
      rfl)
    refine Prod.ext ?_ rfl
    show ({ w.flip S with ntr := w.ntr + 1, tr := upd (w.flip S).tr w.ntr (finished (w.flip S) b a f A ali J1 J0), g := w.g.addEdge (w.lname (if w.eHz a > w.eHz b then b else a)) (w.lname (if w.eHz a > w.eHz b then a else b)) w.ntr, talias := _ } : World) = _
    rw [this, lo, up]
    rfl

theorem op_flip {w : World} (hw : WF w) (hh : Housed w) {op : Op} (hs : op.Sane w) (ht : op.Tells w) (ho : op.Orders) :
    (op.flip S w).run (w.flip S) = ((op.run w).1.flip S, (op.run w).2) := by
  cases op with
  | newLevel t E l A B C ali => rfl
  | addLevel i p ali => exact addLevel_flip i p ali w
  | setItem k i => exact addLevel_flip i false (some k) w
  | delItem k => exact levelsDel_flip k w
  | getLevel k => exact Flips.void (levelsGet_flip k w)
  | getSub r k => exact Flips.void (refItem_flip r k w)
  | setAlias r al => exact setAlias_flip r al w
  | setEnergy i v => rfl
  | setHEnergy j v => exact setHLevel_flip j v w
  | setZEnergy k v => exact setZLevel_flip k v w
  | setConsts i l A B C => rfl
  | setQuad k q => rfl
  | setB b => rfl
  | newTrans a b f A ali =>
    obtain ⟨ha, hb, hJ0, hJ1, hA⟩ := hs
    have h := newTrans_flip (S := S) (f := f) (ali := ali) (hw.node _ _ ha).2.1 (hw.node _ _ hb).2.1 hJ0 hJ1 hA ht
    have e : (Op.flip S w (.newTrans a b f A ali)).run = Op.void (World.newTrans (if S w.ntr then b else a) (if S w.ntr then a else b) f A ali) := by
      unfold Op.flip
      cases S w.ntr <;> rfl
    rw [e]
    show Op.void _ (w.flip S) = ((Op.void (World.newTrans a b f A ali) w).1.flip S, (Op.void (World.newTrans a b f A ali) w).2)
    unfold Op.void
    rw [h]
    rcases World.newTrans a b f A ali w with ⟨w1, e | u⟩ <;> rfl
  | addTransition σ t => exact addTransition_flip σ t w
  | setFrequency σ t f => exact setFrequency_flip hw hh ho t f
  | enforce σ => exact enforce_flip σ none w
  | fillSub t keys => exact Prod.ext (upd_flip w t { w.tr t with subKeys := keys }) rfl

theorem runAll_flip {ops : List Op} {w : World} (hi : WF w ∧ Ends w) (hh : Housed w) (hs : SaneAll ops w) (ht : TellsAll ops w) (ho : ∀ op ∈ ops, op.Orders) :
    runAll (flipAll S ops w) (w.flip S) = (runAll ops w).flip S ∧ outcomes (flipAll S ops w) (w.flip S) = outcomes ops w := by
  induction ops generalizing w with
  | nil => exact ⟨rfl, rfl⟩
  | cons op ops ih =>
    have h0 := op_flip (S := S) hi.1 hh hs.1 ht.1 (ho op List.mem_cons_self)
    obtain ⟨h1, h2⟩ := ih (w := (op.run w).1) (step_inv hi op hs.1) (step_housed hi.1 hh op hs.1) hs.2 ht.2 (fun o h => ho o (List.mem_cons_of_mem _ h))
    refine ⟨?_, ?_⟩
    · show runAll (flipAll S ops (op.run w).1) ((op.flip S w).run (w.flip S)).1 = _
      rw [h0]
      exact h1
    · show ((op.flip S w).run (w.flip S)).2 :: outcomes (flipAll S ops (op.run w).1) ((op.flip S w).run (w.flip S)).1 = _
      rw [h0]
      show _ = (op.run w).2 :: outcomes ops (op.run w).1
      rw [h2]

/-- Two atoms that differ only in which end of a transition is called the first. -/
structure AlikeEnds (S : Nat → Bool) (w v : World) : Prop where
  levels : v.lv = w.lv
  hf : v.hf = w.hf
  zl : v.zl = w.zl
  links : v.g = w.g
  aliases : v.lalias = w.lalias ∧ v.talias = w.talias
  warned : v.warned = w.warned
  freq : ∀ t, v.freqHz t = w.freqHz t
  trans : ∀ t, (v.tr t).lower = (w.tr t).lower ∧ (v.tr t).upper = (w.tr t).upper ∧ (v.tr t).A = (w.tr t).A ∧ (v.tr t).allowed = (w.tr t).allowed ∧
    (v.tr t).setFreq = (w.tr t).setFreq ∧ (v.tr t).ali = (w.tr t).ali
  ends : ∀ t, if S t then (v.tr t).e1 = (w.tr t).e2 ∧ (v.tr t).e2 = (w.tr t).e1 else (v.tr t).e1 = (w.tr t).e1 ∧ (v.tr t).e2 = (w.tr t).e2

theorem alikeEnds_flip (S : Nat → Bool) (w : World) : AlikeEnds S w (w.flip S) := by
  refine ⟨rfl, rfl, rfl, rfl, ⟨rfl, rfl⟩, rfl, fun t => ?_, fun t => ⟨rfl, rfl, rfl, rfl, rfl, rfl⟩, fun t => ?_⟩
  · show |w.eHz (if S t then (w.tr t).e2 else (w.tr t).e1) - w.eHz (if S t then (w.tr t).e1 else (w.tr t).e2)| = _
    unfold freqHz
    cases S t
    · rfl
    · exact abs_sub_comm _ _
  · show if S t then (if S t then (w.tr t).e2 else (w.tr t).e1) = _ ∧ (if S t then (w.tr t).e1 else (w.tr t).e2) = _
      else (if S t then (w.tr t).e2 else (w.tr t).e1) = _ ∧ (if S t then (w.tr t).e1 else (w.tr t).e2) = _
    cases S t <;> exact ⟨rfl, rfl⟩

theorem empty_flip (S : Nat → Bool) (I B : ℚ) : (emptyAtom I B).flip S = emptyAtom I B := by
  unfold World.flip emptyAtom
  simp

/-- The full claim: for all sane programs. -/
def C186_full : Prop := ∀ (S : Nat → Bool) (ops : List Op) (I B : ℚ), SaneAll ops (emptyAtom I B) → (∀ op ∈ ops, op.Orders) →
  AlikeEnds S (runAll ops (emptyAtom I B)) (runAll (flipAll S ops (emptyAtom I B)) (emptyAtom I B)) ∧
    outcomes (flipAll S ops (emptyAtom I B)) (emptyAtom I B) = outcomes ops (emptyAtom I B)

/-- C186 for transitions made between levels of different energies: in which order the two levels are given makes no difference to
anything but the names `E_1` and `E_2` themselves. -/
theorem C186_order_partial (S : Nat → Bool) (ops : List Op) (I B : ℚ) (hs : SaneAll ops (emptyAtom I B)) (ho : ∀ op ∈ ops, op.Orders)
    (ht : TellsAll ops (emptyAtom I B)) :
    AlikeEnds S (runAll ops (emptyAtom I B)) (runAll (flipAll S ops (emptyAtom I B)) (emptyAtom I B)) ∧
      outcomes (flipAll S ops (emptyAtom I B)) (emptyAtom I B) = outcomes ops (emptyAtom I B) := by
  have hh : Housed (emptyAtom I B) := fun t h => by simp [emptyAtom] at h
  obtain ⟨h1, h2⟩ := runAll_flip (S := S) (Reachable.empty I B).inv hh hs ht ho
  rw [empty_flip] at h1 h2
  rw [h1]
  exact ⟨alikeEnds_flip S _, h2⟩

/-- Two levels of one energy and a transition with a set frequency. -/
def tieOps : List Op := [.newLevel (demoTerm 'g') 0 0 0 0 0 none, .newLevel (demoTerm 'a') 0 0 0 0 0 none,
  .addLevel 0 false none, .addLevel 1 false none, .newTrans 0 1 (some 300) .none none, .enforce idOrd]

/-- C186 fails: between two levels of the same energy the one given first becomes the upper one. -/
theorem C186_fails : ¬C186_full := by
  intro h
  have := (h (fun _ => true) tieOps (1/2) 0 (by decide +kernel) (by
    intro op ho
    simp only [tieOps, List.mem_cons, List.not_mem_nil, or_false] at ho
    rcases ho with rfl | rfl | rfl | rfl | rfl | rfl <;> trivial)).1.levels
  have e := congrArg (fun l => (l 0).levelHz) this
  revert e
  decide +kernel

/-- A program with transitions, frequencies and a retuning. -/
def endOps : List Op := [.newLevel (demoTerm 'g') 0 0 0 0 0 none, .newLevel (demoTerm 'a') 500 0 0 0 0 none, .newLevel (demoTerm 'b') 900 0 0 0 0 none,
  .addLevel 0 false none, .addLevel 1 false none, .addLevel 2 false none, .newTrans 0 1 (some 300) (.hz 5) none, .newTrans 2 0 none .none none, .enforce idOrd,
  .setFrequency idOrd 0 310]

example : SaneAll endOps (emptyAtom (1/2) 0) ∧ (∀ op ∈ endOps, op.Orders) ∧ TellsAll endOps (emptyAtom (1/2) 0) ∧
    (runAll endOps (emptyAtom (1/2) 0)).freqHz 0 = 310 ∧ ((runAll endOps (emptyAtom (1/2) 0)).tr 0).e1 = 0 ∧
    ((runAll (flipAll (fun _ => true) endOps (emptyAtom (1/2) 0)) (emptyAtom (1/2) 0)).tr 0).e1 = 1 ∧
    (runAll (flipAll (fun _ => true) endOps (emptyAtom (1/2) 0)) (emptyAtom (1/2) 0)).freqHz 0 = 310 := by
  refine ⟨by decide +kernel, ?_, ⟨trivial, trivial, trivial, trivial, trivial, trivial, .inr (by decide +kernel), .inr (by decide +kernel), trivial, trivial, trivial⟩,
    by decide +kernel, by decide +kernel, by decide +kernel, by decide +kernel⟩
  intro op ho
  simp only [endOps, List.mem_cons, List.not_mem_nil, or_false] at ho
  rcases ho with rfl | rfl | rfl | rfl | rfl | rfl | rfl | rfl | rfl | rfl <;> first | trivial | exact idOrd_shuffles

end AtomTk
