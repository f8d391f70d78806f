import Verif.Props.PutBack
import Verif.Proofs.SubTrans
import Verif.Props.Subs

/-!
# C178: adding a level again
-/

namespace AtomTk
open Util World

theorem Dict.set_self {κ α : Type} [DecidableEq κ] (d : Dict κ α) (k : κ) (a : α) (h : d.get? k = some a) : d.set k a = d := by
  induction d with
  | nil => cases h
  | cons p d ih =>
    obtain ⟨k', b⟩ := p
    simp only [Dict.get?] at h
    simp only [Dict.set]
    by_cases hk : k' = k
    · rw [if_pos hk] at h ⊢
      cases h
      rw [hk]
    · rw [if_neg hk] at h ⊢
      rw [ih h]

theorem addNode_self {g : Graph} {n : Str} {i : Nat} (h : g.lev n = some i) : g.addNode n i = g := by
  unfold Graph.lev at h
  unfold Graph.addNode
  cases hg : g.get? n with
  | none => rw [hg] at h; cases h
  | some r =>
    rw [hg] at h
    simp only
    refine Dict.set_self g n _ ?_
    rw [hg]
    simp only [Option.bind_some] at h
    rw [← h]

/-- What adding a level again does to the aliases. -/
def again (i : Nat) (w : World) : World :=
  { w with lalias := match (w.lv i).ali with | some al => w.lalias.set al (.fine i) | none => w.lalias }

theorem addLevel_split {w : World} (hr : Reachable w) {n : Str} {i : Nat} (h : w.g.lev n = some i) (p : Bool) :
    addLevel i p none w = if p then populateHF i (again i w) else (again i w, .ok ()) := by
  obtain ⟨hn, ha, -⟩ := hr.wf.node _ _ h
  have h1 : lvAddToAtom i w = (w, .ok ()) := by
    show (({ w with lv := upd w.lv i { w.lv i with inAtom := true }, g := w.g.addNode (w.lname i) i } : World), (Except.ok () : Py Unit)) = _
    rw [upd_id _ _ (by rw [← ha]), hn, addNode_self h]
  have h3 : regAlias i w = (again i w, .ok ()) := by
    unfold regAlias again
    cases (w.lv i).ali <;> rfl
  unfold World.addLevel
  rw [PyM.bind_ok h1, PyM.bind_ok (show setAliasOpt i none w = (w, .ok ()) from rfl), PyM.bind_ok h3]
  cases p <;> rfl

/-- C178, without `populate_sublevels`: adding a level of the atom again changes its alias's entry and nothing else; nothing at all if the alias
still means the level, or there is none. -/
theorem C178_same_partial {w : World} (hr : Reachable w) {n : Str} {i : Nat} (h : w.g.lev n = some i) :
    (∃ d, addLevel i false none w = ({ w with lalias := d }, .ok ()) ∧ (∀ al, (w.lv i).ali = some al → d.get? al = some (.fine i)) ∧
      ∀ al, (w.lv i).ali ≠ some al → d.get? al = w.lalias.get? al) ∧
    ((∀ al, (w.lv i).ali = some al → w.lalias.get? al = some (.fine i)) → addLevel i false none w = (w, .ok ())) := by
  have e := addLevel_split hr h false
  simp only [Bool.false_eq_true, if_false] at e
  refine ⟨⟨(again i w).lalias, e, fun al ha => ?_, fun al ha => ?_⟩, fun hal => ?_⟩
  · unfold again
    simp only [ha]
    rw [Dict.get?_set, if_pos rfl]
  · unfold again
    cases hc : (w.lv i).ali with
    | none => rfl
    | some a =>
      simp only
      rw [Dict.get?_set, if_neg]
      rintro rfl
      exact ha hc
  · rw [e]
    unfold again
    cases hc : (w.lv i).ali with
    | none => rfl
    | some a =>
      simp only
      rw [Dict.set_self _ _ _ (hal a hc)]

theorem popHFs_old (i : Nat) (l : List ℚ) (w : World) :
    (popHFs i l w).1.zl = w.zl ∧ (popHFs i l w).1.nzl = w.nzl ∧ w.nhf ≤ (popHFs i l w).1.nhf ∧
      (∀ j, j < w.nhf → (popHFs i l w).1.hf j = w.hf j) ∧ ∀ k, k ≠ i → (popHFs i l w).1.lv k = w.lv k := by
  refine popHFs_inv (fun w1 => w1.zl = w.zl ∧ w1.nzl = w.nzl ∧ w.nhf ≤ w1.nhf ∧ (∀ j, j < w.nhf → w1.hf j = w.hf j) ∧ ∀ k, k ≠ i → w1.lv k = w.lv k) i
    ?_ l w ⟨rfl, rfl, le_refl _, fun _ _ => rfl, fun _ _ => rfl⟩
  rintro w1 J F f g ⟨h1, h2, h3, h4, h5⟩ - - -
  refine ⟨h1, h2, Nat.le_succ_of_le h3, fun j hj => ?_, fun k hk => ?_⟩
  · simp only [popHF1', upd_ne _ _ _ (show j ≠ w1.nhf by omega)]
    exact h4 j hj
  · simp only [popHF1', upd_ne _ _ _ hk]
    exact h5 k hk

theorem popHFs_other (i : Nat) (l : List ℚ) (w : World) (k : Str) (hk : k ∉ l.map fKey) :
    ((popHFs i l w).1.lv i).subs.get? k = (w.lv i).subs.get? k := by
  refine popHFs_inv' (fun w1 => (w1.lv i).subs.get? k = (w.lv i).subs.get? k) i l ?_ w rfl
  intro w1 J F f g hf hw _ _ _
  simp only [popHF1', upd_same]
  rw [Dict.get?_set, if_neg, hw]
  rintro rfl
  exact hk (List.mem_map.2 ⟨f, hf, rfl⟩)

/-- The sublevels computed by `populate_sublevels` are new objects. -/
theorem popHFs_fresh (i : Nat) (J : ℚ) (l : List ℚ) (w : World) (hJ : (w.lv i).term.J = some J) (hF : (w.lv i).term.F = none)
    (hl : ∀ f ∈ l, 0 ≤ f) (hn : (l.map fKey).Nodup) : ∀ f ∈ l, ∃ j g, ((popHFs i l w).1.lv i).subs.get? (fKey f) = some j ∧ w.nhf ≤ j ∧
      compGF (w.lv i).lande w.I J f = .ok g ∧ (popHFs i l w).1.hf j = ⟨(w.lv i).term.withF f, i, g, []⟩ := by
  induction l generalizing w with
  | nil => intro f hf; cases hf
  | cons f fs ih =>
    rcases popHF1_cases i f w with ⟨J', F', g, h1, h2, h3, he⟩ | ⟨e, he⟩
    · rw [hJ] at h1
      cases h1
      simp only [Term.withF, hF, Option.getD_none, Option.some.injEq] at h2
      subst h2
      have hp : popHFs i (f :: fs) w = popHFs i fs (popHF1' i f g w) := by
        show (popHF1 i f >>= fun _ => World.popHFs i fs) w = _
        rw [PyM.bind_ok he]
      rw [hp]
      rw [List.map_cons, List.nodup_cons] at hn
      intro x hx
      rcases List.mem_cons.1 hx with rfl | hx
      · refine ⟨w.nhf, g, ?_, le_refl _, h3, ?_⟩
        · rw [popHFs_other _ _ _ _ hn.1]
          simp only [popHF1', upd_same]
          rw [Dict.get?_set, if_pos rfl]
        · rw [(popHFs_old i fs (popHF1' i x g w)).2.2.2.1 w.nhf (Nat.lt_succ_self _)]
          simp only [popHF1', upd_same]
      · obtain ⟨j, g', a1, a2, a3, a4⟩ := ih (popHF1' i f g w) (by simp [popHF1', hJ]) (by simp [popHF1', hF]) (fun y hy => hl y (by simp [hy])) hn.2 x hx
        refine ⟨j, g', a1, Nat.le_of_succ_le a2, ?_, ?_⟩
        · simpa only [popHF1', upd_same] using a3
        · simpa only [popHF1', upd_same] using a4
    · exfalso
      obtain ⟨g, hg⟩ := compGF_ok (hl f (by simp)) (w.lv i).lande w.I J
      unfold popHF1 at he
      rw [makeCopy_num] at he
      simp only [Term.withF, hF, hJ, Option.getD_none, hg] at he
      injection (congrArg Prod.snd he)

/-- C178, with `populate_sublevels=True`: no level moves, nothing else of the atom changes, the hyperfine sublevels have their keys and energies.  They are new
objects, with the factor of the present Landé factor and no Zeeman levels yet; the old objects have their energies still.  Missing: the Zeeman levels (C178_fails). -/
theorem C178_populated_partial {w : World} (hr : Reachable w) (hI : IsSpin w.I) {n : Str} {i : Nat} (h : w.g.lev n = some i) {J : ℚ}
    (hJ : (w.lv i).term.J = some J) (hs : IsSpin J) (hF : (w.lv i).term.F = none) :
    ∃ w', addLevel i true none w = (w', .ok ()) ∧ w'.g = w.g ∧ w'.tr = w.tr ∧ w'.talias = w.talias ∧ w'.zl = w.zl ∧
      (∀ k, k ≠ i → w'.lv k = w.lv k) ∧ (∃ s, w'.lv i = { w.lv i with subs := s }) ∧ (w'.lv i).subs.keys = (hfFs w.I J).map fKey ∧
      (∀ j, j < w.nhf → w'.hf j = w.hf j ∧ w'.hHz j = w.hHz j) ∧
      ∀ F ∈ hfFs w.I J, ∃ j g, (w'.lv i).subs.get? (fKey F) = some j ∧ w.nhf ≤ j ∧ compGF (w.lv i).lande w.I J F = .ok g ∧
        w'.hf j = ⟨(w.lv i).term.withF F, i, g, []⟩ ∧ ∀ j0, (w.lv i).subs.get? (fKey F) = some j0 → w'.hHz j = w.hHz j0 := by
  obtain ⟨hn, ha, hi⟩ := hr.wf.node _ _ h
  have hnn : ∀ f ∈ hfFs w.I J, 0 ≤ f := fun f hf => (hfFs_spin hI hs hf).nonneg
  obtain ⟨w', e1, e2⟩ := popHFs_ok i J (hfFs w.I J) (again i w) hJ hF hnn
  have e3 : w' = (popHFs i (hfFs w.I J) (again i w)).1 := by rw [e1]
  obtain ⟨o1, o2, o3, o4, o5⟩ := popHFs_old i (hfFs w.I J) (again i w)
  have fr := popHFs_frame i (hfFs w.I J) (again i w)
  have fs := popHFs_fresh i J (hfFs w.I J) (again i w) hJ hF hnn (hfKeys_nodup hI hs)
  rw [← e3] at o1 o2 o3 o4 o5 fr fs
  have e4 : addLevel i true none w = (w', .ok ()) := by
    rw [addLevel_split hr h true]
    unfold populateHF
    simp only [if_true]
    rw [if_pos (show ((again i w).lv i).inAtom = true from ha)]
    rw [show ((again i w).lv i).term.J = some J from hJ]
    exact e1
  have hlv : ∀ k, (w'.lv k).levelHz = (w.lv k).levelHz ∧ (w'.lv k).hfA = (w.lv k).hfA ∧ (w'.lv k).hfB = (w.lv k).hfB ∧ (w'.lv k).hfC = (w.lv k).hfC := by
    intro k
    obtain ⟨s, hs'⟩ := fr.lv k
    rw [hs']
    exact ⟨rfl, rfl, rfl, rfl⟩
  have hw : ∀ j j0, (w'.hf j).parent = (w.hf j0).parent → (w'.hf j).term.J = (w.hf j0).term.J → (w'.hf j).term.F = (w.hf j0).term.F → w'.hHz j = w.hHz j0 := by
    intro j j0 p1 p2 p3
    unfold hHz hShift eHz
    obtain ⟨q1, q2, q3, q4⟩ := hlv (w.hf j0).parent
    rw [p1, p2, p3, q1, q2, q3, q4, fr.I]
    rfl
  refine ⟨w', e4, fr.g, fr.tr, fr.talias, o1, o5, fr.lv i, ?_, fun j hj => ?_, fun F hm => ?_⟩
  · rw [e2]
    show addKeys (w.lv i).subs.keys _ = _
    rcases hr.keysInv.hf hI i J hJ hs hF with h0 | h0
    · rw [keys_nil h0, addKeys_new _ _ (by simpa using hfKeys_nodup hI hs)]
      simp
    · rw [h0, addKeys_sub _ _ (fun _ h => h)]
  · have := o4 j hj
    exact ⟨this, hw j j (by rw [this]; rfl) (by rw [this]; rfl) (by rw [this]; rfl)⟩
  · obtain ⟨j, g, a1, a2, a3, a4⟩ := fs F hm
    refine ⟨j, g, a1, a2, a3, a4, fun j0 hj0 => ?_⟩
    have hk : (w.lv i).subs.keys = (hfFs w.I J).map fKey := by
      refine (hr.keysInv.hf hI i J hJ hs hF).resolve_left fun h0 => ?_
      rw [h0] at hj0
      cases hj0
    obtain ⟨j1, hy⟩ := hyp_all hr.subInv hJ hI hs hF hk hm
    have : j1 = j0 := by
      have := hy.get
      rw [hj0] at this
      exact (Option.some.inj this).symm
    subst this
    refine hw j j1 (by rw [a4, hy.par]) (by rw [a4, hy.J]; exact hJ) ?_
    rw [a4, hy.F]
    show some ((w.lv i).term.F.getD F) = _
    rw [hF]
    rfl

theorem hfItem_fst (j : Nat) (k : Str) (w : World) : (hfItem j k w).1 = (lazyZ j w).1 := by
  unfold hfItem
  rcases h : lazyZ j w with ⟨w1, r | r⟩
  · rw [PyM.bind_err h]
  · rw [PyM.bind_ok h]
    show ((if w1.I = 0 ∧ isIn mJtxt k = true then PyM.raise .KeyError else PyM.lift ((w1.hf j).subs.getE k) : PyM Nat) w1).1 = _
    split <;> rfl

/-- C178: the Zeeman levels of a new sublevel, when they are asked for, are computed from the present Landé factor and have no quadratic shift. -/
theorem C178_zeeman {w : World} (hr : Reachable w) {j : Nat} {J F m g : ℚ} (h0 : (w.hf j).subs = []) (hJ : (w.hf j).term.J = some J)
    (hF : (w.hf j).term.F = some F) (hs : IsSpin F) (hm : m ∈ zMs F) (hg : compGF (w.lv (w.hf j).parent).lande w.I J F = .ok g) :
    ∃ w' z, hfItem j (mKey m) w = (w', .ok z) ∧ (w'.zl z).gF = g ∧ (w'.zl z).quad = 0 ∧
      w'.zHz z = (w.hHz j).map (fun e => e + g * m * muB * w.B) := by
  obtain ⟨w', z, e1, e2, -⟩ := hfItem_ok hr.keysInv hJ hF hs hm
  refine ⟨w', z, e1, ?_⟩
  have e3 : w' = (popZs j (zMs F) w).1 := by
    have := hfItem_fst j (mKey m) w
    rw [e1] at this
    rw [show w' = (lazyZ j w).1 from this]
    unfold lazyZ
    rw [if_pos (by rw [h0]; rfl), hF]
  have key : (popZs j (zMs F) w).1.lv = w.lv ∧ (popZs j (zMs F) w).1.I = w.I ∧ ((popZs j (zMs F) w).1.hf j).term = (w.hf j).term ∧
      ((popZs j (zMs F) w).1.hf j).parent = (w.hf j).parent ∧ ∀ k z, ((popZs j (zMs F) w).1.hf j).subs.get? k = some z →
        z < (popZs j (zMs F) w).1.nzl ∧ ((popZs j (zMs F) w).1.zl z).gF = g ∧ ((popZs j (zMs F) w).1.zl z).quad = 0 := by
    refine popZs_inv' (fun w1 => w1.lv = w.lv ∧ w1.I = w.I ∧ (w1.hf j).term = (w.hf j).term ∧ (w1.hf j).parent = (w.hf j).parent ∧
      ∀ k z, (w1.hf j).subs.get? k = some z → z < w1.nzl ∧ (w1.zl z).gF = g ∧ (w1.zl z).quad = 0) j (zMs F) ?_ w
      ⟨rfl, rfl, rfl, rfl, fun k z hk => by rw [h0] at hk; cases hk⟩
    rintro w1 J1 F1 m1 g1 - ⟨a1, a2, a3, a4, a5⟩ b1 b2 b3
    rw [a3, hJ] at b1
    rw [a3, hF] at b2
    cases b1
    cases b2
    rw [a1, a2, a4, hg] at b3
    cases b3
    refine ⟨a1, a2, ?_, ?_, fun k z hk => ?_⟩
    · simpa only [popZ1', upd_same] using a3
    · simpa only [popZ1', upd_same] using a4
    · simp only [popZ1', upd_same] at hk ⊢
      rw [Dict.get?_set] at hk
      split at hk
      · cases hk
        rw [upd_same]
        exact ⟨Nat.lt_succ_self _, rfl, rfl⟩
      · obtain ⟨c1, c2, c3⟩ := a5 k z hk
        rw [upd_ne _ _ _ (Nat.ne_of_lt c1)]
        exact ⟨Nat.lt_succ_of_lt c1, c2, c3⟩
  rw [← e3] at key
  obtain ⟨k1, k2, k3, k4, k5⟩ := key
  obtain ⟨-, q1, q2⟩ := k5 _ _ e2
  refine ⟨q1, q2, ?_⟩
  have hr' : Reachable w' := by
    have := Reachable.step (.getSub (.hyp j) (mKey m)) hr trivial
    rwa [show (Op.run (.getSub (.hyp j) (mKey m)) w).1 = w' by
      show (Op.void (World.refItem (.hyp j) (mKey m)) w).1 = w'
      rw [Op.void_fst]
      show ((hfItem j (mKey m) >>= fun k => pure (Ref.zee k)) w).1 = w'
      rw [PyM.bind_ok e1]
      rfl] at this
  have hk : (w'.hf j).subs.keys = (zMs F).map mKey := by
    refine (hr'.keysInv.z j J F (by rw [k3, hJ]) (by rw [k3, hF]) hs).resolve_left fun h => ?_
    rw [h] at e2
    cases e2
  obtain ⟨z', hz⟩ := zee_all hr'.subInv (by rw [k3, hF]) hs hk hm
  have : z' = z := by
    have := hz.get
    rw [e2] at this
    exact (Option.some.inj this).symm
  subst this
  have hB : w'.B = w.B := by
    have := (hfItem_frame j (mKey m) w).B
    rwa [e1] at this
  unfold zHz zShiftHz hHz hShift eHz
  rw [hz.par, hz.mF, q1, q2, k1, k2, k3, k4, hB]
  simp only [zShift, hJ, hF]
  cases hfShift (w.lv (w.hf j).parent).hfA (w.lv (w.hf j).parent).hfB (w.lv (w.hf j).parent).hfC w.I J F with
  | error e => rfl
  | ok x =>
    show Except.ok _ = Except.ok _
    congr 1
    ring

/-- The full claim C178: adding a level of the atom again changes no energy that can be looked up by name. -/
def C178_full : Prop := ∀ (w : World) (n : Str) (i : Nat) (p : Bool) (key : Str) (r r' : Ref) (e e' : ℚ), Reachable w → w.g.lev n = some i →
  let w1 := (levelsGet key w).1
  let w2 := (addLevel i p none w1).1
  (levelsGet key w).2 = .ok r → w1.refHz r = .ok e → (levelsGet key w2).2 = .ok r' → (levelsGet key w2).1.refHz r' = .ok e' → e' = e

/-- A quadratic shift of 3 Hz for F=1 mF=1, in a field of one Gauss. -/
def quadOps : List Op := hfOps ++ [.setB 1, .getLevel "g 2S1/2 F=1 mF=1".toList, .setQuad 2 3]

theorem quadOps_reachable : Reachable (runAll quadOps (emptyAtom (1/2) 0)) := (Reachable.empty _ _).runAll (by decide +kernel)

/-- C178 is false: with `populate_sublevels=True` the quadratic shifts are lost. -/
theorem C178_fails : ¬C178_full := by
  intro h
  have := h (runAll quadOps (emptyAtom (1/2) 0)) "g 2S1/2".toList 0 true "g 2S1/2 F=1 mF=1".toList (.zee 2) (.zee 5)
    (100 + 1 + muB + 3) (100 + 1 + muB) quadOps_reachable (by decide +kernel) (by decide +kernel) (by decide +kernel) (by decide +kernel) (by decide +kernel)
  linarith

/-- The case of the theorems: the atom with I = 1/2, level g. -/
example : (addLevel 0 false none (runAll quadOps (emptyAtom (1/2) 0))) = (runAll quadOps (emptyAtom (1/2) 0), .ok ()) :=
  (C178_same_partial quadOps_reachable (n := "g 2S1/2".toList) (by decide +kernel)).2 (by decide +kernel)

example : ∃ w', addLevel 0 true none (runAll quadOps (emptyAtom (1/2) 0)) = (w', .ok ()) ∧ w'.g = (runAll quadOps (emptyAtom (1/2) 0)).g := by
  obtain ⟨w', h1, h2, -⟩ := C178_populated_partial quadOps_reachable ⟨1, by decide +kernel⟩ (n := "g 2S1/2".toList) (i := 0) (J := 1/2)
    (by decide +kernel) (by decide +kernel) ⟨1, by norm_num⟩ (by decide +kernel)
  exact ⟨w', h1, h2⟩

/-- F=1 mF=1 is at 101 Hz and the linear shift after g has been added again. -/
example : ∃ w' z, hfItem 5 (mKey 1) (runAll (quadOps ++ [.addLevel 0 true none]) (emptyAtom (1/2) 0)) = (w', .ok z) ∧ (w'.zl z).gF = 1 ∧
    w'.zHz z = .ok (101 + muB) := by
  obtain ⟨w', z, h1, h2, -, h3⟩ := C178_zeeman (w := runAll (quadOps ++ [.addLevel 0 true none]) (emptyAtom (1/2) 0)) (j := 5) (J := 1/2) (F := 1) (m := 1) (g := 1)
    ((Reachable.empty _ _).runAll (by decide +kernel)) (by decide +kernel) (by decide +kernel) (by decide +kernel) ⟨2, by norm_num⟩ (by decide +kernel) (by decide +kernel)
  exact ⟨w', z, h1, h2, h3.trans (by decide +kernel)⟩

/-- An alias that had gone to another level comes back. -/
theorem C178_alias : ∃ w, Reachable w ∧ w.g.lev (demoName 'g') = some 0 ∧ (levelsGet ['x'] w).2 = .ok (.fine 1) ∧
    (levelsGet ['x'] (addLevel 0 false none w).1).2 = .ok (.fine 0) :=
  ⟨runAll [.newLevel (demoTerm 'g') 0 0 0 0 0 none, .newLevel (demoTerm 'a') 5 0 0 0 0 none, .addLevel 0 false (some ['x']), .addLevel 1 false (some ['x'])]
    (emptyAtom 0 0), demo_reachable (by decide +kernel), by decide +kernel, by decide +kernel, by decide +kernel⟩

end AtomTk
