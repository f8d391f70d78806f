import Verif.Props.Quiet
import Verif.Props.Atomic

/-!
# C183: sublevels computed when the level is added, or later
-/

namespace AtomTk
open Util World

theorem popHF1_alike (i : Nat) (f : ℚ) (w : World) : Alike w (popHF1 i f w).1 := by
  unfold popHF1
  rcases (w.lv i).term.makeCopy (.num f) .none with e | t
  · exact .refl w
  · simp only
    rcases t.J with _ | J
    · exact .refl w
    rcases t.F with _ | F
    · exact .refl w
    simp only
    rcases compGF (w.lv i).lande w.I J F with e | g
    · exact .refl w
    · refine ⟨⟨w.nhf + 1, upd w.hf w.nhf ⟨t, i, g, []⟩, w.nzl, w.zl, upd (fun k => (w.lv k).subs) i ((w.lv i).subs.set (fKey f) w.nhf)⟩, ?_⟩
      simp only [World.put, World.mk.injEq, true_and, and_true]
      funext j
      by_cases h : j = i
      · subst h; simp
      · simp [upd_ne _ _ _ h]

theorem popHFs_alike (i : Nat) (l : List ℚ) (w : World) : Alike w (popHFs i l w).1 := by
  induction l generalizing w with
  | nil => exact .refl w
  | cons f fs ih =>
    unfold popHFs
    have h := popHF1_alike i f w
    rcases h1 : popHF1 i f w with ⟨w1, e | u⟩
    · rw [PyM.bind_err h1]
      rw [h1] at h
      exact h
    · rw [PyM.bind_ok h1]
      rw [h1] at h
      exact h.trans (ih w1)

theorem populateHF_alike (i : Nat) (w : World) : Alike w (populateHF i w).1 := by
  unfold populateHF
  split
  · cases (w.lv i).term.J with
    | none => exact .refl w
    | some J => exact popHFs_alike i _ w
  · exact .refl w

/-- `add_level` leaves the same atom, up to sublevels, whether it makes them or not. -/
theorem addLevel_alike (i : Nat) (p : Bool) (ali : Option Str) (w : World) : Alike (addLevel i false ali w).1 (addLevel i p ali w).1 := by
  unfold addLevel
  rcases h1 : lvAddToAtom i w with ⟨w1, e | u⟩
  · rw [PyM.bind_err h1, PyM.bind_err h1]
    exact .refl _
  rw [PyM.bind_ok h1, PyM.bind_ok h1]
  rcases h2 : setAliasOpt i ali w1 with ⟨w2, e | u⟩
  · rw [PyM.bind_err h2, PyM.bind_err h2]
    exact .refl _
  rw [PyM.bind_ok h2, PyM.bind_ok h2]
  rcases h3 : regAlias i w2 with ⟨w3, e | u⟩
  · rw [PyM.bind_err h3, PyM.bind_err h3]
    exact .refl _
  rw [PyM.bind_ok h3, PyM.bind_ok h3]
  cases p
  · exact .refl _
  · exact populateHF_alike i w3

/-- The call with `populate_sublevels=False`. -/
def Op.later : Op → Op
  | .addLevel i _ ali => .addLevel i false ali
  | op => op

/-- The programs differ only in whether `add_level` is told to make the sublevels. -/
def SameLater (ops ops' : List Op) : Prop := ops.map Op.later = ops'.map Op.later

/-- `add_level` -/
def Op.Adds : Op → Prop
  | .addLevel .. => True
  | _ => False

theorem later_fine {op : Op} (h : op.Fine) : op.later.Fine := by
  cases op <;> exact h

theorem op_later (op : Op) (w : World) (h : op.Fine) : Alike (op.later.run w).1 (op.run w).1 ∧ (¬op.Adds → (op.run w).2 = (op.later.run w).2) := by
  cases op with
  | addLevel i p ali => exact ⟨addLevel_alike i p ali w, fun h => absurd trivial h⟩
  | _ => exact ⟨.refl _, fun _ => rfl⟩

/-- The results of two runs of programs of the same length agree wherever the call is not `add_level`. -/
def AgreeBut : List Op → List (Py Unit) → List (Py Unit) → Prop
  | op :: ops, r :: rs, r' :: rs' => (¬op.Adds → r' = r) ∧ AgreeBut ops rs rs'
  | [], [], [] => True
  | _, _, _ => False

theorem runAll_later (ops : List Op) (h : ∀ op ∈ ops, op.Fine) {w w' : World} (ha : Alike w w') :
    Alike (runAll (ops.map Op.later) w) (runAll ops w') ∧ AgreeBut ops (outcomes (ops.map Op.later) w) (outcomes ops w') := by
  induction ops generalizing w w' with
  | nil => exact ⟨ha, trivial⟩
  | cons op ops ih =>
    have hf := h op List.mem_cons_self
    obtain ⟨h1, h2⟩ := deaf_alike (op_deaf (later_fine hf) w) ha
    obtain ⟨h3, h4⟩ := op_later op w' hf
    obtain ⟨h5, h6⟩ := ih (fun o ho => h o (List.mem_cons_of_mem _ ho)) (h1.trans h3)
    refine ⟨h5, ⟨fun hn => ?_, h6⟩⟩
    rw [← h2]
    exact h4 hn

theorem AgreeBut.join {ops ops' : List Op} (hs : SameLater ops ops') {r s t : List (Py Unit)} (h1 : AgreeBut ops r s) (h2 : AgreeBut ops' r t) :
    AgreeBut ops s t := by
  induction ops generalizing ops' r s t with
  | nil =>
    cases ops' with
    | cons op' ops' => cases hs
    | nil =>
      cases r with
      | cons x r => exact h1.elim
      | nil =>
        cases s with
        | cons y s => exact h1.elim
        | nil =>
          cases t with
          | cons z t => exact h2.elim
          | nil => trivial
  | cons op ops ih =>
    cases ops' with
    | nil => cases hs
    | cons op' ops' =>
      have h0 : op.later = op'.later := (List.cons.inj hs).1
      have h3 : SameLater ops ops' := (List.cons.inj hs).2
      have ha : ¬op.Adds → ¬op'.Adds := by
        intro h
        cases op <;> cases op' <;> first | exact id | exact absurd trivial h | cases h0
      cases r with
      | nil => exact h1.elim
      | cons x r =>
        cases s with
        | nil => exact h1.elim
        | cons y s =>
          cases t with
          | nil => exact h2.elim
          | cons z t => exact ⟨fun hn => (h2.1 (ha hn)).trans (h1.1 hn).symm, ih h3 h1.2 h2.2⟩

/-- C183: whether levels are added with their sublevels or without makes no difference to the atom but which sublevels have been made, nor to the results and
exceptions of other calls. -/
theorem C183_worlds (ops ops' : List Op) (w : World) (hs : SameLater ops ops') (h : ∀ op ∈ ops, op.Fine) (h' : ∀ op ∈ ops', op.Fine) :
    Alike (runAll ops w) (runAll ops' w) ∧ AgreeBut ops (outcomes ops w) (outcomes ops' w) := by
  obtain ⟨h1, h2⟩ := runAll_later ops h (Alike.refl w)
  obtain ⟨h3, h4⟩ := runAll_later ops' h' (Alike.refl w)
  have e : ops.map Op.later = ops'.map Op.later := hs
  rw [← e] at h3 h4
  exact ⟨h1.symm.trans h3, h2.join hs h4⟩

/-- The atom as the user sees it is then the same: names, energies, constants, transitions, frequencies, aliases, warnings. -/
theorem C183_same (ops ops' : List Op) (w : World) (hs : SameLater ops ops') (h : ∀ op ∈ ops, op.Fine) (h' : ∀ op ∈ ops', op.Fine) :
    (runAll ops' w).levelNames = (runAll ops w).levelNames ∧ (∀ i, (runAll ops' w).eHz i = (runAll ops w).eHz i ∧ consts ((runAll ops' w).lv i) = consts ((runAll ops w).lv i)) ∧
    (runAll ops' w).tr = (runAll ops w).tr ∧ (∀ t, (runAll ops' w).freqHz t = (runAll ops w).freqHz t) ∧ (runAll ops' w).g = (runAll ops w).g ∧
    (runAll ops' w).lalias = (runAll ops w).lalias ∧ (runAll ops' w).talias = (runAll ops w).talias ∧ (runAll ops' w).warned = (runAll ops w).warned := by
  obtain ⟨a, -, b, c, d, e, f, g, k, -⟩ := C146_same (C183_worlds ops ops' w hs h h').1
  exact ⟨a, fun i => (b i).2, c, d, e, f, g, k⟩

/-- Every `add_level` of the program can make the sublevels, or is not told to. -/
def CanMake : List Op → World → Prop
  | [], _ => True
  | op :: ops, w => (op.Adds → ¬op.Leaky w) ∧ CanMake ops (op.run w).1

theorem outcomes_eq {ops ops' : List Op} {w w' : World} (hs : SameLater ops ops') (hc : CanMake ops w) (hc' : CanMake ops' w')
    (h : AgreeBut ops (outcomes ops w) (outcomes ops' w')) : outcomes ops' w' = outcomes ops w := by
  induction ops generalizing ops' w w' with
  | nil =>
    cases ops' with
    | cons op' ops' => cases hs
    | nil => rfl
  | cons op ops ih =>
    cases ops' with
    | nil => cases hs
    | cons op' ops' =>
      have h0 : op.later = op'.later := (List.cons.inj hs).1
      have h3 : SameLater ops ops' := (List.cons.inj hs).2
      have e := ih h3 hc.2 hc'.2 h.2
      have e0 : (op'.run w').2 = (op.run w).2 := by
        by_cases ha : op.Adds
        · cases op with
          | addLevel i p ali =>
            cases op' with
            | addLevel i' p' ali' => exact (addLevel_returns ali' (hc'.1 trivial)).trans (addLevel_returns ali (hc.1 trivial)).symm
            | _ => cases h0
          | _ => exact ha.elim
        · exact h.1 ha
      show (op'.run w').2 :: outcomes ops' (op'.run w').1 = (op.run w).2 :: outcomes ops (op.run w).1
      rw [e, e0]

/-- C183: with levels whose sublevels can be made, as levels with J and no F are in an atom with a spin, all calls return and raise the same. -/
theorem C183_results (ops ops' : List Op) (w : World) (hs : SameLater ops ops') (h : ∀ op ∈ ops, op.Fine) (h' : ∀ op ∈ ops', op.Fine)
    (hc : CanMake ops w) (hc' : CanMake ops' w) : outcomes ops' w = outcomes ops w :=
  outcomes_eq hs hc hc' (C183_worlds ops ops' w hs h h').2

/-- C183: hyperfine levels looked up by name afterwards have the same energies. -/
theorem C183_hyperfine_partial (ops ops' : List Op) (I B : ℚ) (hs : SameLater ops ops') (h : ∀ op ∈ ops, op.Fine) (h' : ∀ op ∈ ops', op.Fine)
    (ho : SaneAll ops (emptyAtom I B)) (ho' : SaneAll ops' (emptyAtom I B)) {i : Nat} {J F : ℚ} (hI : IsSpin (runAll ops (emptyAtom I B)).I)
    (hf : Findable (runAll ops (emptyAtom I B)) i J) (hF : F ∈ hfFs (runAll ops (emptyAtom I B)).I J)
    (hal : (runAll ops (emptyAtom I B)).lalias.get? (hypText ((runAll ops (emptyAtom I B)).lname i) F) = none) :
    ∃ v v' j j' e, levelsGet (hypText ((runAll ops (emptyAtom I B)).lname i) F) (runAll ops (emptyAtom I B)) = (v, Except.ok (.hyp j)) ∧
      levelsGet (hypText ((runAll ops (emptyAtom I B)).lname i) F) (runAll ops' (emptyAtom I B)) = (v', Except.ok (.hyp j')) ∧
      v.hHz j = Except.ok e ∧ v'.hHz j' = Except.ok e :=
  C146_hyperfine ((Reachable.empty I B).runAll ho) ((Reachable.empty I B).runAll ho') (C183_worlds ops ops' _ hs h h').1 hI hf hF hal

/-- The full claim: hyperfine levels looked up afterwards agree in their factors also. -/
def C183_full : Prop := ∀ (ops ops' : List Op) (I B : ℚ) (key : Str) (v v' : World) (j j' : Nat), SameLater ops ops' → (∀ op ∈ ops, op.Fine) → (∀ op ∈ ops', op.Fine) →
  levelsGet key (runAll ops (emptyAtom I B)) = (v, .ok (.hyp j)) → levelsGet key (runAll ops' (emptyAtom I B)) = (v', .ok (.hyp j')) →
  v'.hHz j' = v.hHz j ∧ (v'.hf j').gF = (v.hf j).gF

/-- A level added, then given another Lande factor and other constants. -/
def laterOps (p : Bool) : List Op := [.newLevel (demoTerm 'g') 0 2 400 0 0 none, .newLevel (demoTerm 'a') 500 2 8 0 0 none, .addLevel 0 p none,
  .addLevel 1 (!p) none, .setConsts 0 3 800 0 0, .newTrans 0 1 (some 300) .none none, .delItem ['x']]

theorem laterOps_fine (p : Bool) : ∀ op ∈ laterOps p, op.Fine := by
  intro op ho
  simp only [laterOps, List.mem_cons, List.not_mem_nil, or_false] at ho
  rcases ho with rfl | rfl | rfl | rfl | rfl | rfl | rfl <;> trivial

/-- C183 fails for the factors: those of the sublevels made at once come from the Lande factor before the assignment. -/
theorem C183_fails : ¬C183_full := by
  intro h
  have := (h (laterOps true) (laterOps false) (1/2) 0 "g 2S1/2 F=1".toList _ _ _ _ rfl (laterOps_fine true) (laterOps_fine false)
    (show levelsGet _ _ = (_, .ok (.hyp 1)) from Prod.ext rfl (by decide +kernel))
    (show levelsGet _ _ = (_, .ok (.hyp 3)) from Prod.ext rfl (by decide +kernel))).2
  revert this
  decide +kernel

example : SameLater (laterOps true) (laterOps false) ∧ SaneAll (laterOps true) (emptyAtom (1/2) 0) ∧ SaneAll (laterOps false) (emptyAtom (1/2) 0) ∧
    (runAll (laterOps true) (emptyAtom (1/2) 0)).nhf = 2 ∧ (runAll (laterOps false) (emptyAtom (1/2) 0)).nhf = 2 ∧
    ((runAll (laterOps true) (emptyAtom (1/2) 0)).lv 0).subs.length = 2 ∧ ((runAll (laterOps false) (emptyAtom (1/2) 0)).lv 0).subs.length = 0 ∧
    outcomes (laterOps true) (emptyAtom (1/2) 0) = [.ok (), .ok (), .ok (), .ok (), .ok (), .ok (), .error .NetworkXError] := by
  refine ⟨rfl, ?_⟩
  decide +kernel

example : CanMake (laterOps true) (emptyAtom (1/2) 0) := by
  have half : IsSpin (1/2) := ⟨1, by norm_num⟩
  have g : ∀ (w : World) (i : Nat) (p : Bool) (ali : Option Str), (w.lv i).term.J = some (1/2) → (w.lv i).term.F = none → w.I = 1/2 →
      ¬(Op.addLevel i p ali).Leaky w := fun w i p ali h1 h2 h3 hl => hl.2 ⟨1/2, h1, h2, half, h3 ▸ half⟩
  refine ⟨fun h => h.elim, fun h => h.elim, fun _ => g _ _ _ _ ?_ ?_ ?_, fun _ => g _ _ _ _ ?_ ?_ ?_, fun h => h.elim, fun h => h.elim, fun h => h.elim, trivial⟩ <;> decide +kernel

end AtomTk
