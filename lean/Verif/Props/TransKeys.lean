import Verif.Model.TransKeys
import Verif.Props.SubTrans

/-! # C79: `atom.transitions` with names of sublevels, aliases, and its listings -/

namespace AtomTk
open Util World Strengths

/-! ## The parts of a name -/

theorem rsplit_hyp {n : Str} {F : ℚ} (hF : IsHalfInt F) : rsplit spc 1 (hypText n F) = [n, fKey F] := by
  have : hypText n F = n ++ ' ' :: fKey F := by simp [hypText, fKey, Term.fEq]
  rw [this]
  simp only [rsplit, rsplit1_space n (fKey F) (fKey_no hF (by decide) (by decide) (by decide) (by decide) (by decide))]
  rfl

theorem rsplit_zee {n : Str} {F m : ℚ} (hF : IsHalfInt F) (hm : IsHalfInt m) :
    rsplit spc 2 (zeeText n F m) = [n, fKey F, mKey m] := by
  have e : zeeText n F m = (n ++ ' ' :: fKey F) ++ ' ' :: mKey m := by
    simp [zeeText, hypText, fKey, mKey, Term.fEq, Term.mfEq]
  rw [e]
  simp only [rsplit, rsplit1_space _ (mKey m) (mKey_no hm (by decide) (by decide) (by decide) (by decide) (by decide) (by decide)),
    rsplit1_space n (fKey F) (fKey_no hF (by decide) (by decide) (by decide) (by decide) (by decide))]
  rfl

theorem isIn_hypText {n : Str} {F : ℚ} (hn : '=' ∉ n) (hF : IsHalfInt F) :
    isIn Term.mfEq (hypText n F) = false ∧ isIn mJeq (hypText n F) = false ∧ isIn Term.fEq (hypText n F) = true := by
  have e : hypText n F = n ++ ' ' :: 'F' :: '=' :: numToFrac F := by simp [hypText]
  have hfr : '=' ∉ numToFrac F := frac_no hF (by decide) (by decide) (by decide)
  refine ⟨by rw [e]; exact isIn_hyp 'm' 'F' n _ hn hfr (by decide), by rw [e]; exact isIn_hyp 'm' 'J' n _ hn hfr (by decide), ?_⟩
  have := isIn_mid Term.fEq (n ++ [' ']) (numToFrac F)
  rw [e]; simpa [Term.fEq] using this

theorem isIn_zeeText (n : Str) (F m : ℚ) : isIn Term.mfEq (zeeText n F m) = true := by
  have := isIn_mid Term.mfEq (hypText n F ++ [' ']) (numToFrac m)
  simpa [zeeText, Term.mfEq] using this

/-! ## The lookup once the keys are in order -/

theorem PyM.get_bind {α : Type _} (f : World → PyM α) (w : World) : (PyM.get >>= f) w = f w w := by
  rw [PyM.bind_ok (show PyM.get w = (w, .ok w) from rfl)]

theorem PyM.bind_assoc' {α β γ : Type _} (m : PyM α) (f : α → PyM β) (g : β → PyM γ) (w : World) :
    ((m >>= f) >>= g) w = (m >>= fun a => f a >>= g) w := by
  show PyM.bind' (PyM.bind' m f) g w = PyM.bind' m (fun a => PyM.bind' (f a) g) w
  unfold PyM.bind'
  rcases m w with ⟨w1, r⟩
  cases r <;> rfl

/-- Going through the fine-structure transition: `atom.transitions[(a, b)][k]`. -/
noncomputable def stepH (W : Wig) (sd : SubDicts) (a b : Str) (k : Str × Str) : PyM TRef := do
  let t ← transGet a b
  let x ← hItem W t (sd.h t) k
  pure (.hyp x)

/-- `atom.transitions[(a, b)][k][k']` -/
noncomputable def stepZ (W : Wig) (sd : SubDicts) (a b : Str) (k k' : Str × Str) : PyM TRef := do
  let t ← transGet a b
  let x ← hItem W t (sd.h t) k
  let z ← zItem W x (sd.z x) k'
  pure (.zee z)

theorem transPath_hyp (W : Wig) (sd : SubDicts) {n0 n1 first : Str} {F0 F1 : ℚ} (h0 : IsHalfInt F0) (h1 : IsHalfInt F1)
    (hf : isIn Term.mfEq first = false ∧ isIn mJeq first = false ∧ isIn Term.fEq first = true) (w : World) :
    transPath W sd first (hypText n0 F0) (hypText n1 F1) w = (do
      let t ← PyM.lift (w.g.edges.getE (n0, n1))
      let x ← hItem W t (sd.h t) (fKey F0, fKey F1)
      pure (.hyp x) : PyM TRef) w := by
  unfold transPath
  rw [PyM.get_bind]
  simp only [hf.1, hf.2.1, hf.2.2, Bool.false_eq_true, if_false, if_true, rsplit_hyp h0, rsplit_hyp h1]

theorem transPath_zee (W : Wig) (sd : SubDicts) {n0 n1 first : Str} {F0 F1 m0 m1 : ℚ} (h0 : IsHalfInt F0) (h1 : IsHalfInt F1)
    (g0 : IsHalfInt m0) (g1 : IsHalfInt m1) (hf : isIn Term.mfEq first = true) (w : World) :
    transPath W sd first (zeeText n0 F0 m0) (zeeText n1 F1 m1) w = (do
      let t ← PyM.lift (w.g.edges.getE (n0, n1))
      let x ← hItem W t (sd.h t) (fKey F0, fKey F1)
      let z ← zItem W x (sd.z x) (mKey m0, mKey m1)
      pure (.zee z) : PyM TRef) w := by
  unfold transPath
  rw [PyM.get_bind]
  simp only [hf, if_true, rsplit_zee h0 g0, rsplit_zee h1 g1]

theorem transLookup_of (W : Wig) (sd : SubDicts) {a b : Str} {w w1 w2 : World} {ra rb : Ref} {ea eb : ℚ}
    (h1 : levelsGet a w = (w1, .ok ra)) (h2 : levelsGet b w1 = (w2, .ok rb)) (h3 : w2.refHz ra = .ok ea)
    (h4 : w2.refHz rb = .ok eb) :
    transLookup W sd a b w = (if ea > eb then transPath W sd a b a else transPath W sd a a b) w2 := by
  unfold transLookup
  rw [PyM.bind_ok h1, PyM.bind_ok h2, PyM.get_bind,
    PyM.bind_ok (show PyM.lift (w2.refHz ra) w2 = (w2, .ok ea) by rw [h3]; rfl),
    PyM.bind_ok (show PyM.lift (w2.refHz rb) w2 = (w2, .ok eb) by rw [h4]; rfl)]

theorem transGet_le {w : World} (hr : Reachable w) {ia ib : Nat} (ha : Plain w (w.lname ia)) (hb : Plain w (w.lname ib))
    (hla : w.g.lev (w.lname ia) = some ia) (hlb : w.g.lev (w.lname ib) = some ib) (h : w.eHz ia ≤ w.eHz ib) :
    transGet (w.lname ia) (w.lname ib) w = PyM.lift (w.g.edges.getE (w.lname ia, w.lname ib)) w := by
  have hn := hr.wf.gok.nodup
  rw [transGet_plainKey ha.1 hb.1, levelsGet_plain hn ha hla, levelsGet_plain hn hb hlb]
  simp only [bind, Except.bind, refHz]
  rw [if_neg (by simpa using h)]
  cases w.g.edges.getE (w.lname ia, w.lname ib) <;> rfl

theorem PyM.bind_same {α β : Type _} {m m' : PyM α} {f : α → PyM β} {w : World} (h : m w = m' w) : (m >>= f) w = (m' >>= f) w := by
  show PyM.bind' m f w = PyM.bind' m' f w
  unfold PyM.bind'
  rw [h]

/-- A level lookup keeps everything about the fine structure. -/
theorem Findable.keep {w w' : World} {i : Nat} {J : ℚ} (hf : Findable w i J) (l : LFrame w w') :
    Findable w' i J ∧ w'.lname i = w.lname i ∧ w'.eHz i = w.eHz i := by
  obtain ⟨s, hs⟩ := l.lv i
  have hn : w'.lname i = w.lname i := by unfold lname; rw [hs]
  exact ⟨⟨by rw [hn, l.g]; exact hf.reg, by rw [hn]; exact hf.clean, by rw [hs]; exact hf.hJ, hf.spin, by rw [hs]; exact hf.hF,
    by rw [hs]; exact hf.hM⟩, hn, by unfold eHz; rw [hs]⟩

theorem Findable.plain {w : World} {i : Nat} {J : ℚ} (hf : Findable w i J) (ha : w.lalias.get? (w.lname i) = none) :
    Plain w (w.lname i) :=
  ⟨(plainKey_iff _).2 ⟨isIn_false (c := '=') (by simp [Term.mfEq]) hf.clean, isIn_false (c := '=') (by simp [mJeq]) hf.clean,
    isIn_false (c := '=') (by simp [Term.fEq]) hf.clean⟩, ha⟩

theorem levelsGet_reach {w w' : World} {k : Str} {r : Py Ref} (hr : Reachable w) (h : levelsGet k w = (w', r)) :
    Reachable w' ∧ LFrame w w' := by
  have h1 := Reachable.step (.getLevel k) hr trivial
  rw [show ((Op.getLevel k).run w).1 = (levelsGet k w).1 from Op.void_fst _ _, h] at h1
  have h2 := levelsGet_frame k w
  rw [h] at h2
  exact ⟨h1, h2⟩

/-- Two levels whose names are free. -/
structure Pair (w : World) (ia ib : Nat) (Ja Jb : ℚ) : Prop where
  spin : IsSpin w.I
  fa : Findable w ia Ja
  fb : Findable w ib Jb
  na : w.lalias.get? (w.lname ia) = none
  nb : w.lalias.get? (w.lname ib) = none

/-! ## C79 -/

/-- C79, hyperfine names: the lookup first resolves both names, which computes the sublevels, and then gives exactly what going
through the fine-structure transition gives, provided the two hyperfine levels lie in the same order as the two fine-structure
levels. -/
theorem C79_hyperfine_partial (W : Wig) (sd : SubDicts) {w : World} (hr : Reachable w) {ia ib : Nat} {Ja Jb F F' : ℚ}
    (hp : Pair w ia ib Ja Jb) (hF : F ∈ hfFs w.I Ja) (hF' : F' ∈ hfFs w.I Jb)
    (hle : w.eHz ia ≤ w.eHz ib) {w1 w2 : World} {j j' : Nat} {x y : ℚ} :
    (levelsGet (hypText (w.lname ia) F) w = (w1, .ok (.hyp j)) → levelsGet (hypText (w.lname ib) F') w1 = (w2, .ok (.hyp j')) →
      w2.hHz j = .ok x → w2.hHz j' = .ok y → x ≤ y →
      transLookup W sd (hypText (w.lname ia) F) (hypText (w.lname ib) F') w =
        stepH W sd (w.lname ia) (w.lname ib) (fKey F, fKey F') w2) ∧
    (levelsGet (hypText (w.lname ib) F') w = (w1, .ok (.hyp j')) → levelsGet (hypText (w.lname ia) F) w1 = (w2, .ok (.hyp j)) →
      w2.hHz j = .ok x → w2.hHz j' = .ok y → x < y →
      transLookup W sd (hypText (w.lname ib) F') (hypText (w.lname ia) F) w =
        stepH W sd (w.lname ia) (w.lname ib) (fKey F, fKey F') w2) := by
  have sF := (hfFs_spin hp.spin hp.fa.spin hF).isHalfInt
  have sF' := (hfFs_spin hp.spin hp.fb.spin hF').isHalfInt
  have fin : ∀ first, isIn Term.mfEq first = false ∧ isIn mJeq first = false ∧ isIn Term.fEq first = true →
      Reachable w2 → LFrame w w2 → transPath W sd first (hypText (w.lname ia) F) (hypText (w.lname ib) F') w2 =
        stepH W sd (w.lname ia) (w.lname ib) (fKey F, fKey F') w2 := by
    intro first h0 hr2 l2
    obtain ⟨fa2, na2, ea2⟩ := hp.fa.keep l2
    obtain ⟨fb2, nb2, eb2⟩ := hp.fb.keep l2
    have := transGet_le hr2 (fa2.plain (by rw [na2, l2.lalias]; exact hp.na)) (fb2.plain (by rw [nb2, l2.lalias]; exact hp.nb))
      fa2.reg fb2.reg (by rw [ea2, eb2]; exact hle)
    rw [na2, nb2] at this
    rw [transPath_hyp W sd sF sF' h0]
    unfold stepH
    exact (PyM.bind_same this).symm
  refine ⟨fun h1 h2 h3 h4 h5 => ?_, fun h1 h2 h3 h4 h5 => ?_⟩
  · obtain ⟨r1, l1⟩ := levelsGet_reach hr h1
    obtain ⟨r2, l2⟩ := levelsGet_reach r1 h2
    rw [transLookup_of W sd h1 h2 (ea := x) (eb := y) h3 h4, if_neg (by simpa using h5)]
    exact fin _ (isIn_hypText hp.fa.clean sF) r2 (LFrame.trans _ _ _ l1 l2)
  · obtain ⟨r1, l1⟩ := levelsGet_reach hr h1
    obtain ⟨r2, l2⟩ := levelsGet_reach r1 h2
    rw [transLookup_of W sd h1 h2 (ea := y) (eb := x) h4 h3, if_pos h5]
    exact fin _ (isIn_hypText hp.fb.clean sF') r2 (LFrame.trans _ _ _ l1 l2)

/-- C79, Zeeman names, in the same way. -/
theorem C79_zeeman_partial (W : Wig) (sd : SubDicts) {w : World} (hr : Reachable w) {ia ib : Nat} {Ja Jb F F' m m' : ℚ}
    (hp : Pair w ia ib Ja Jb) (hF : F ∈ hfFs w.I Ja) (hF' : F' ∈ hfFs w.I Jb) (hm : m ∈ zMs F) (hm' : m' ∈ zMs F')
    (hle : w.eHz ia ≤ w.eHz ib) {w1 w2 : World} {j j' : Nat} {x y : ℚ} :
    (levelsGet (zeeText (w.lname ia) F m) w = (w1, .ok (.zee j)) → levelsGet (zeeText (w.lname ib) F' m') w1 = (w2, .ok (.zee j')) →
      w2.zHz j = .ok x → w2.zHz j' = .ok y → x ≤ y →
      transLookup W sd (zeeText (w.lname ia) F m) (zeeText (w.lname ib) F' m') w =
        stepZ W sd (w.lname ia) (w.lname ib) (fKey F, fKey F') (mKey m, mKey m') w2) ∧
    (levelsGet (zeeText (w.lname ib) F' m') w = (w1, .ok (.zee j')) → levelsGet (zeeText (w.lname ia) F m) w1 = (w2, .ok (.zee j)) →
      w2.zHz j = .ok x → w2.zHz j' = .ok y → x < y →
      transLookup W sd (zeeText (w.lname ib) F' m') (zeeText (w.lname ia) F m) w =
        stepZ W sd (w.lname ia) (w.lname ib) (fKey F, fKey F') (mKey m, mKey m') w2) := by
  have sF := hfFs_spin hp.spin hp.fa.spin hF
  have sF' := hfFs_spin hp.spin hp.fb.spin hF'
  have fin : ∀ first, isIn Term.mfEq first = true →
      Reachable w2 → LFrame w w2 → transPath W sd first (zeeText (w.lname ia) F m) (zeeText (w.lname ib) F' m') w2 =
        stepZ W sd (w.lname ia) (w.lname ib) (fKey F, fKey F') (mKey m, mKey m') w2 := by
    intro first h0 hr2 l2
    obtain ⟨fa2, na2, ea2⟩ := hp.fa.keep l2
    obtain ⟨fb2, nb2, eb2⟩ := hp.fb.keep l2
    have := transGet_le hr2 (fa2.plain (by rw [na2, l2.lalias]; exact hp.na)) (fb2.plain (by rw [nb2, l2.lalias]; exact hp.nb))
      fa2.reg fb2.reg (by rw [ea2, eb2]; exact hle)
    rw [na2, nb2] at this
    rw [transPath_zee W sd sF.isHalfInt sF'.isHalfInt (zMs_half sF hm) (zMs_half sF' hm') h0]
    unfold stepZ
    exact (PyM.bind_same this).symm
  refine ⟨fun h1 h2 h3 h4 h5 => ?_, fun h1 h2 h3 h4 h5 => ?_⟩
  · obtain ⟨r1, l1⟩ := levelsGet_reach hr h1
    obtain ⟨r2, l2⟩ := levelsGet_reach r1 h2
    rw [transLookup_of W sd h1 h2 (ea := x) (eb := y) h3 h4, if_neg (by simpa using h5)]
    exact fin _ (isIn_zeeText _ _ _) r2 (LFrame.trans _ _ _ l1 l2)
  · obtain ⟨r1, l1⟩ := levelsGet_reach hr h1
    obtain ⟨r2, l2⟩ := levelsGet_reach r1 h2
    rw [transLookup_of W sd h1 h2 (ea := y) (eb := x) h4 h3, if_pos h5]
    exact fin _ (isIn_zeeText _ _ _) r2 (LFrame.trans _ _ _ l1 l2)

theorem rsplit_mJ {n : Str} {m : ℚ} (hm : IsHalfInt m) : rsplit spcMJ 1 (mJText n m) = [n, numToFrac m] := by
  have e : mJText n m = n ++ (spcMJ ++ numToFrac m) := by simp [mJText, spcMJ]
  rw [e]
  simp only [rsplit, rsplit1_mJ n _ (frac_no hm (by decide) (by decide) (by decide))]
  rfl

theorem isIn_mJText {n : Str} {m : ℚ} (hn : '=' ∉ n) (hm : IsHalfInt m) :
    isIn Term.mfEq (mJText n m) = false ∧ isIn mJeq (mJText n m) = true := by
  have h0 : 'F' ∉ "J=".toList ++ numToFrac m := by
    simp only [List.mem_append, not_or]
    exact ⟨by decide, frac_no hm (by decide) (by decide) (by decide)⟩
  have key : ∀ a : Str, '=' ∉ a → isIn Term.mfEq (a ++ (' ' :: 'm' :: ("J=".toList ++ numToFrac m))) = false := by
    intro a ha
    induction a with
    | nil =>
      have h2 := isIn_false (pat := Term.mfEq) (c := 'F') (by simp [Term.mfEq]) h0
      simp only [List.nil_append, isIn, h2, Bool.or_false]
      simp [Term.mfEq, List.isPrefixOf]
    | cons x a ih =>
      simp only [List.mem_cons, not_or] at ha
      simp only [List.cons_append, isIn]
      rw [ih ha.2, Bool.or_false]
      cases a with
      | nil => simp [Term.mfEq, List.isPrefixOf]
      | cons y a => cases a with
        | nil => simp [Term.mfEq, List.isPrefixOf]
        | cons z a =>
          simp only [List.mem_cons, not_or] at ha
          have : ('=' == z) = false := by simpa using ha.2.2.1
          simp [Term.mfEq, List.isPrefixOf, this]
  refine ⟨by simpa [mJText] using key n hn, ?_⟩
  have := isIn_mid mJeq (n ++ [' ']) (numToFrac m)
  simpa [mJText, mJeq] using this

theorem transPath_mJ (W : Wig) (sd : SubDicts) {w : World} (hg : w.g.keys.Nodup) {n0 n1 first : Str} {i0 i1 : Nat} {J0 J1 m0 m1 : ℚ}
    (l0 : w.g.lev n0 = some i0) (l1 : w.g.lev n1 = some i1) (e0 : (w.lv i0).term.J = some J0) (e1 : (w.lv i1).term.J = some J1)
    (g0 : IsHalfInt m0) (g1 : IsHalfInt m1) (hf : isIn Term.mfEq first = false ∧ isIn mJeq first = true) :
    transPath W sd first (mJText n0 m0) (mJText n1 m1) w = (do
      let t ← PyM.lift (w.g.edges.getE (n0, n1))
      let x ← hItem W t (sd.h t) (fKey J0, fKey J1)
      let z ← zItem W x (sd.z x) (mKey m0, mKey m1)
      pure (.zee z) : PyM TRef) w := by
  unfold transPath
  rw [PyM.get_bind]
  simp only [hf.1, hf.2, Bool.false_eq_true, if_false, if_true, rsplit_mJ g0, rsplit_mJ g1]
  rw [PyM.bind_ok (show PyM.lift (w.g.levelAttrs.getE n0) w = (w, .ok i0) by
      unfold PyM.lift; rw [Dict.getE_ok.2 (by rw [Graph.get?_levelAttrs _ hg]; exact l0)]),
    PyM.bind_ok (show PyM.lift (w.g.levelAttrs.getE n1) w = (w, .ok i1) by
      unfold PyM.lift; rw [Dict.getE_ok.2 (by rw [Graph.get?_levelAttrs _ hg]; exact l1)])]
  simp only [jFrac, Term.fracText, e0, e1]
  rfl

/-- C79, `mJ=` names: the same as the Zeeman names with `F=J`, for whatever order the levels have and whether or not the
lookup succeeds. -/
theorem C79_mJ_partial (W : Wig) (sd : SubDicts) {w : World} (hr : Reachable w) {ia ib : Nat} {Ja Jb m m' : ℚ}
    (hp : Pair w ia ib Ja Jb) (hm : m ∈ zMs Ja) (hm' : m' ∈ zMs Jb)
    (a1 : w.lalias.get? (mJText (w.lname ia) m) = none) (a2 : w.lalias.get? (mJText (w.lname ib) m') = none)
    (b1 : w.lalias.get? (zeeText (w.lname ia) Ja m) = none) (b2 : w.lalias.get? (zeeText (w.lname ib) Jb m') = none) :
    transLookup W sd (mJText (w.lname ia) m) (mJText (w.lname ib) m') w =
      transLookup W sd (zeeText (w.lname ia) Ja m) (zeeText (w.lname ib) Jb m') w := by
  have hmh := zMs_half hp.fa.spin hm
  have hmh' := zMs_half hp.fb.spin hm'
  have sJ := hp.fa.spin.isHalfInt
  have sJ' := hp.fb.spin.isHalfInt
  have e1 : levelsGet (mJText (w.lname ia) m) w = levelsGet (zeeText (w.lname ia) Ja m) w := by
    rw [levelsGet_mJ hr.wf.gok.nodup hp.fa.clean hp.fa.reg hp.fa.hJ hmh a1, levelsGet_zee hr.wf.gok.nodup hp.fa.reg sJ hmh b1]
  cases h1 : levelsGet (zeeText (w.lname ia) Ja m) w with
  | mk w1 r1 =>
    rw [h1] at e1
    cases r1 with
    | error e =>
      unfold transLookup
      rw [PyM.bind_err h1, PyM.bind_err e1]
    | ok ra =>
      obtain ⟨q1, l1⟩ := levelsGet_reach hr h1
      obtain ⟨f1, n1, -⟩ := hp.fb.keep l1
      have e2 : levelsGet (mJText (w.lname ib) m') w1 = levelsGet (zeeText (w.lname ib) Jb m') w1 := by
        rw [← n1]
        rw [levelsGet_mJ q1.wf.gok.nodup f1.clean f1.reg f1.hJ hmh' (by rw [n1, l1.lalias]; exact a2),
          levelsGet_zee q1.wf.gok.nodup f1.reg sJ' hmh' (by rw [n1, l1.lalias]; exact b2)]
      cases h2 : levelsGet (zeeText (w.lname ib) Jb m') w1 with
      | mk w2 r2 =>
        rw [h2] at e2
        cases r2 with
        | error e =>
          unfold transLookup
          rw [PyM.bind_ok h1, PyM.bind_ok e1, PyM.bind_err h2, PyM.bind_err e2]
        | ok rb =>
          obtain ⟨q2, l2'⟩ := levelsGet_reach q1 h2
          have l2 := LFrame.trans _ _ _ l1 l2'
          obtain ⟨fa2, na2, -⟩ := hp.fa.keep l2
          obtain ⟨fb2, nb2, -⟩ := hp.fb.keep l2
          have hg := q2.wf.gok.nodup
          have pa := fa2.reg; rw [na2] at pa
          have pb := fb2.reg; rw [nb2] at pb
          unfold transLookup
          rw [PyM.bind_ok h1, PyM.bind_ok e1, PyM.bind_ok h2, PyM.bind_ok e2, PyM.get_bind, PyM.get_bind]
          cases h3 : w2.refHz ra with
          | error e =>
            have : PyM.lift (.error e : Py ℚ) w2 = (w2, .error e) := rfl
            rw [PyM.bind_err this, PyM.bind_err this]
          | ok ea =>
            have : PyM.lift (.ok ea : Py ℚ) w2 = (w2, .ok ea) := rfl
            rw [PyM.bind_ok this, PyM.bind_ok this]
            cases h4 : w2.refHz rb with
            | error e =>
              have : PyM.lift (.error e : Py ℚ) w2 = (w2, .error e) := rfl
              rw [PyM.bind_err this, PyM.bind_err this]
            | ok eb =>
              have : PyM.lift (.ok eb : Py ℚ) w2 = (w2, .ok eb) := rfl
              rw [PyM.bind_ok this, PyM.bind_ok this]
              split
              · rw [transPath_mJ W sd hg pb pa fb2.hJ fa2.hJ hmh' hmh (isIn_mJText hp.fa.clean hmh),
                  transPath_zee W sd sJ' sJ hmh' hmh (isIn_zeeText _ _ _)]
              · rw [transPath_mJ W sd hg pa pb fa2.hJ fb2.hJ hmh hmh' (isIn_mJText hp.fa.clean hmh),
                  transPath_zee W sd sJ sJ' hmh hmh' (isIn_zeeText _ _ _)]

/-- C79, names of fine-structure levels: the lookup of `C28`, `C29`. -/
theorem C79_fine_partial (W : Wig) (sd : SubDicts) (a b : Str) (w : World) (ha : plainKey a = true) :
    transLookup W sd a b w = (transGet a b >>= fun t => pure (.fine t)) w := by
  obtain ⟨h1, h2, h3⟩ := (plainKey_iff a).1 ha
  have path : ∀ lo hi w, transPath W sd a lo hi w =
      (PyM.lift (w.g.edges.getE (lo, hi)) >>= fun t => pure (TRef.fine t)) w := by
    intro lo hi w
    unfold transPath
    rw [PyM.get_bind]
    simp only [h1, h2, h3, Bool.false_eq_true, if_false]
  unfold transLookup transGet
  cases k1 : levelsGet a w with
  | mk w1 r1 => cases r1 with
    | error e => rw [PyM.bind_assoc', PyM.bind_err k1, PyM.bind_err k1]
    | ok ra =>
      rw [PyM.bind_assoc', PyM.bind_ok k1, PyM.bind_ok k1]
      cases k2 : levelsGet b w1 with
      | mk w2 r2 => cases r2 with
        | error e => rw [PyM.bind_assoc', PyM.bind_err k2, PyM.bind_err k2]
        | ok rb =>
          rw [PyM.bind_assoc', PyM.bind_ok k2, PyM.bind_ok k2, PyM.get_bind, PyM.bind_assoc', PyM.get_bind, PyM.bind_assoc']
          cases h3 : w2.refHz ra with
          | error e =>
            have : PyM.lift (.error e : Py ℚ) w2 = (w2, .error e) := rfl
            rw [PyM.bind_err this, PyM.bind_err this]
          | ok ea =>
            have : PyM.lift (.ok ea : Py ℚ) w2 = (w2, .ok ea) := rfl
            rw [PyM.bind_ok this, PyM.bind_ok this, PyM.bind_assoc']
            cases h4 : w2.refHz rb with
            | error e =>
              have : PyM.lift (.error e : Py ℚ) w2 = (w2, .error e) := rfl
              rw [PyM.bind_err this, PyM.bind_err this]
            | ok eb =>
              have : PyM.lift (.ok eb : Py ℚ) w2 = (w2, .ok eb) := rfl
              rw [PyM.bind_ok this, PyM.bind_ok this, if_pos ha]
              split
              · rw [path]
              · rw [path]

/-! ## Overlapping manifolds -/

theorem hyp_name {w : World} (hr : Reachable w) (hI : IsSpin w.I) {i j : Nat} {J J' F : ℚ} (hf : Findable w i J) (h : IsHyp w i J' j F) :
    J' = J ∧ F ∈ hfFs w.I J ∧ (w.hf j).term.name = hypText (w.lname i) F := by
  obtain ⟨F', hF', hk, hp, ht⟩ := sub_hyp hr hf h.get
  have e1 : J' = J := by
    have := h.J
    rw [ht] at this
    simp only [Term.withF, hf.hJ] at this
    simpa using this.symm
  subst e1
  have e2 : F = F' := fKey_inj (hfFs_spin hI hf.spin h.mem).isHalfInt (hfFs_spin hI hf.spin hF').isHalfInt hk
  subst e2
  exact ⟨rfl, h.mem, by rw [ht]; exact name_withF hf.hF hf.hM F⟩

/-- The full claim: a hyperfine transition of a transition that can itself be found is found under the names of its two
levels, given that the sublevels have been computed and no alias is in the way. -/
def C79_full : Prop := ∀ (W : Wig) (w : World) (t : Nat) (J J' : ℚ) (d : Dict (Str × Str) HTr), W.Good → Reachable w → SubReady w t J J' →
  Pair w (w.tr t).e1 (w.tr t).e2 J J' → w.lalias = [] → hSubs W t [] w = (w, .ok d) →
  transGet (w.lname (w.tr t).e1) (w.lname (w.tr t).e2) w = (w, .ok t) →
  ∀ x ∈ d.vals, ∃ w' y, transLookup W ⟨fun _ => d, fun _ => []⟩ (w.hf x.lower).term.name (w.hf x.upper).term.name w = (w', .ok (.hyp y))

/-- The ends of a subtransition. -/
theorem sub_ends {W : Wig} (hW : W.Good) {w : World} (hr : Reachable w) {t : Nat} {J J' : ℚ} (hs : SubReady w t J J')
    {d : Dict (Str × Str) HTr} (hd : hSubs W t [] w = (w, .ok d)) {x : HTr} (hx : x ∈ d.vals) :
    ∃ F F', ((IsHyp w (w.tr t).e1 J x.lower F ∧ IsHyp w (w.tr t).e2 J' x.upper F') ∨
      (IsHyp w (w.tr t).e2 J' x.lower F ∧ IsHyp w (w.tr t).e1 J x.upper F')) ∧
      ∃ a b, w.hHz x.lower = .ok a ∧ w.hHz x.upper = .ok b ∧ a ≤ b := by
  obtain ⟨-, h1⟩ := stored hW hr hs hd hx
  obtain ⟨w2, d2, g1, g2, g3, g4, g5, g6, g7, g8, -⟩ := hSubs_spec hW hr.subInv hs
  rw [hd] at g1
  simp only [Prod.mk.injEq, Except.ok.injEq] at g1
  obtain ⟨rfl, rfl⟩ := g1
  obtain ⟨a, b, F1, F2, i1, i2, -, i4, -, -⟩ := g8 _ _ h1
  by_cases hc : w.hypE (w.tr t).e2 J' F2 > w.hypE (w.tr t).e1 J F1
  · have el : x.lower = a := by rw [i4]; simp [mkHTr, hc]
    have eu : x.upper = b := by rw [i4]; simp [mkHTr, hc]
    rw [el, eu]
    exact ⟨F1, F2, .inl ⟨i1, i2⟩, _, _, i1.energy, i2.energy, hc.le⟩
  · have el : x.lower = b := by rw [i4]; simp [mkHTr, hc]
    have eu : x.upper = a := by rw [i4]; simp [mkHTr, hc]
    rw [el, eu]
    exact ⟨F2, F1, .inr ⟨i2, i1⟩, _, _, i2.energy, i1.energy, not_lt.1 hc⟩

/-- C79: a hyperfine transition is found under the names of its lower and upper level when its lower level belongs to the
lower of the two fine-structure levels, their transition is found, and there is no transition with the quantum numbers
exchanged. -/
theorem C79_found_partial {W : Wig} (hW : W.Good) {w : World} (hr : Reachable w) {t : Nat} {J J' : ℚ} (hs : SubReady w t J J')
    {d : Dict (Str × Str) HTr} {dz : HTr → Dict (Str × Str) ZTr} (hd : hSubs W t [] w = (w, .ok d)) {x : HTr} (hx : x ∈ d.vals) {ia ib : Nat} {Ja Jb : ℚ} (hp : Pair w ia ib Ja Jb)
    (hla : (w.hf x.lower).parent = ia) (hlb : (w.hf x.upper).parent = ib) (hle : w.eHz ia ≤ w.eHz ib)
    (ht : transGet (w.lname ia) (w.lname ib) w = (w, .ok t))
    (a1 : w.lalias.get? (w.hf x.lower).term.name = none) (a2 : w.lalias.get? (w.hf x.upper).term.name = none)
    (ho : ∀ y ∈ d.vals, w.hName y.lower = w.hName x.upper → w.hName y.upper = w.hName x.lower → w.hName x.lower = w.hName x.upper) :
    transLookup W ⟨fun _ => d, dz⟩ (w.hf x.lower).term.name (w.hf x.upper).term.name w = (w, .ok (.hyp x)) := by
  obtain ⟨F, F', hh, a, b, ea, eb, hab⟩ := sub_ends hW hr hs hd hx
  obtain ⟨Jl, Ju, i1, i2⟩ : ∃ Jl Ju, IsHyp w ia Jl x.lower F ∧ IsHyp w ib Ju x.upper F' := by
    rcases hh with ⟨i1, i2⟩ | ⟨i1, i2⟩
    · exact ⟨J, J', by rw [← hla, i1.par]; exact i1, by rw [← hlb, i2.par]; exact i2⟩
    · exact ⟨J', J, by rw [← hla, i1.par]; exact i1, by rw [← hlb, i2.par]; exact i2⟩
  obtain ⟨rfl, m1, n1⟩ := hyp_name hr hp.spin hp.fa i1
  obtain ⟨rfl, m2, n2⟩ := hyp_name hr hp.spin hp.fb i2
  have g1 := (C15_hyperfine_partial hr hp.spin hp.fa i1.get a1).1
  have g2 := (C15_hyperfine_partial hr hp.spin hp.fb i2.get a2).1
  rw [n1] at g1
  rw [n2] at g2
  rw [n1, n2, (C79_hyperfine_partial W ⟨fun _ => d, dz⟩ hr hp m1 m2 hle).1 g1 g2 ea eb hab]
  have c := C30_named_partial hW hr hs hd hx ho
  unfold hName at c
  rw [i1.short, i2.short] at c
  unfold stepH
  rw [PyM.bind_ok ht, PyM.bind_ok c]
  rfl

/-- C79: when the hyperfine structure is so large that the order of the two hyperfine levels is opposite to that of the
fine-structure levels, the lookup raises `KeyError`, although the transition between the two fine-structure levels is found. -/
theorem C79_overlap_raises (W : Wig) (sd : SubDicts) {w : World} (hr : Reachable w) {ia ib t : Nat} {Ja Jb F F' : ℚ}
    (hp : Pair w ia ib Ja Jb) (hF : F ∈ hfFs w.I Ja) (hF' : F' ∈ hfFs w.I Jb) (hle : w.eHz ia ≤ w.eHz ib) (hne : w.lname ia ≠ w.lname ib)
    (ht : transGet (w.lname ia) (w.lname ib) w = (w, .ok t)) {w1 w2 : World} {j j' : Nat} {x y : ℚ} :
    (levelsGet (hypText (w.lname ia) F) w = (w1, .ok (.hyp j)) → levelsGet (hypText (w.lname ib) F') w1 = (w2, .ok (.hyp j')) →
      w2.hHz j = .ok x → w2.hHz j' = .ok y → y < x →
      (transLookup W sd (hypText (w.lname ia) F) (hypText (w.lname ib) F') w).2 = .error .KeyError) ∧
    (levelsGet (hypText (w.lname ib) F') w = (w1, .ok (.hyp j')) → levelsGet (hypText (w.lname ia) F) w1 = (w2, .ok (.hyp j)) →
      w2.hHz j = .ok x → w2.hHz j' = .ok y → y ≤ x →
      (transLookup W sd (hypText (w.lname ib) F') (hypText (w.lname ia) F) w).2 = .error .KeyError) := by
  have sF := (hfFs_spin hp.spin hp.fa.spin hF).isHalfInt
  have sF' := (hfFs_spin hp.spin hp.fb.spin hF').isHalfInt
  have pa := hp.fa.plain hp.na
  have pb := hp.fb.plain hp.nb
  have fin : ∀ first, isIn Term.mfEq first = false ∧ isIn mJeq first = false ∧ isIn Term.fEq first = true →
      LFrame w w2 → (transPath W sd first (hypText (w.lname ib) F') (hypText (w.lname ia) F) w2).2 = .error .KeyError := by
    intro first h0 l2
    have h := transGet_le hr pa pb hp.fa.reg hp.fb.reg hle
    rw [ht] at h
    have hg : w.g.edges.get? (w.lname ia, w.lname ib) = some t := by
      refine Dict.getE_ok.1 ?_
      have := congrArg Prod.snd h
      exact this.symm
    rw [Graph.get?_edges hr.wf.gok] at hg
    split at hg
    · rename_i hb
      have hk : w.g.edges.get? (w.lname ib, w.lname ia) = none := by
        rw [Graph.get?_edges hr.wf.gok, if_neg]
        intro hb'
        exact hne (Graph.before_antisymm w.g _ _ (Graph.mem_of_lev hp.fa.reg) (Graph.mem_of_lev hp.fb.reg) hb hb')
      rw [transPath_hyp W sd sF' sF h0, l2.g]
      have : PyM.lift (w.g.edges.getE (w.lname ib, w.lname ia)) w2 = (w2, .error .KeyError) := by
        rw [Dict.getE_err hk]; rfl
      rw [PyM.bind_err this]
    · cases hg
  refine ⟨fun h1 h2 h3 h4 h5 => ?_, fun h1 h2 h3 h4 h5 => ?_⟩
  · obtain ⟨r1, l1⟩ := levelsGet_reach hr h1
    obtain ⟨r2, l2⟩ := levelsGet_reach r1 h2
    rw [transLookup_of W sd h1 h2 (ea := x) (eb := y) h3 h4, if_pos h5]
    exact fin _ (isIn_hypText hp.fa.clean sF) (LFrame.trans _ _ _ l1 l2)
  · obtain ⟨r1, l1⟩ := levelsGet_reach hr h1
    obtain ⟨r2, l2⟩ := levelsGet_reach r1 h2
    rw [transLookup_of W sd h1 h2 (ea := y) (eb := x) h4 h3, if_neg (by simpa using h5)]
    exact fin _ (isIn_hypText hp.fb.clean sF') (LFrame.trans _ _ _ l1 l2)

/-- Nuclear spin 1/2 and two levels with J = 1/2 whose hyperfine structures overlap: the ground level's F = 1 is at 100 Hz, the
excited level's, at 1 Hz, at -99 Hz. -/
def overlapOps : List Op :=
  [.newLevel (demoTerm 'g') 0 2 400 0 0 none, .newLevel ⟨['e'], "2P*".toList, some (1/2), none, none, 100, { l := some 1, s := some (1/2) }⟩ 1 2 (-400) 0 0 none,
   .addLevel 0 true none, .addLevel 1 true none, .newTrans 0 1 none (.hz 1) none]

/-- The atom after these calls. -/
def overlapAtom : World := runAll overlapOps (emptyAtom (1/2) 0)

theorem overlapAtom_reachable : Reachable overlapAtom := (Reachable.empty (1/2) 0).runAll (by decide +kernel)

theorem overlapAtom_ready : SubReady overlapAtom 0 (1/2) (1/2) :=
  ⟨⟨1, by decide +kernel⟩, by decide +kernel, by decide +kernel, by decide +kernel, by decide +kernel, ⟨1, by norm_num⟩, ⟨1, by norm_num⟩,
    by decide +kernel, by decide +kernel⟩

theorem overlapAtom_pair : Pair overlapAtom (overlapAtom.tr 0).e1 (overlapAtom.tr 0).e2 (1/2) (1/2) :=
  ⟨⟨1, by decide +kernel⟩, ⟨by decide +kernel, by decide +kernel, by decide +kernel, ⟨1, by norm_num⟩, by decide +kernel, by decide +kernel⟩,
    ⟨by decide +kernel, by decide +kernel, by decide +kernel, ⟨1, by norm_num⟩, by decide +kernel, by decide +kernel⟩,
    by decide +kernel, by decide +kernel⟩

theorem overlapAtom_coupled : Coupled (overlapAtom.tr 0).allowed overlapAtom.I (1/2) 1 (1/2) 1 := by
  left
  have e0 : (overlapAtom.tr 0).allowed = (true, false, false) := by decide +kernel
  refine ⟨by rw [e0]; simp, ?_⟩
  have := six_half 1 1 2 2 2 1
  have e1 : half 1 = 1/2 := by unfold half; norm_num
  rw [half_one, e1] at this
  have e2 : overlapAtom.I = 1/2 := by decide +kernel
  rw [e2, this]
  exact w6_ne (by decide) (by decide +kernel)

theorem assertSubs_pop {w : World} {i : Nat} (h : (w.lv i).subs ≠ []) : assertSubs i w = (w, .ok ()) := by
  unfold assertSubs
  have : lazyHF i w = (w, .ok ()) := by
    unfold lazyHF
    rw [if_neg (by simpa using h)]
  rw [PyM.bind_ok this, PyM.get_bind, if_neg (by simpa using h)]
  rfl

/-- With sublevels computed before, computing the subtransitions changes no level. -/
theorem hSubs_pop {W : Wig} (hW : W.Good) {w : World} (hr : Reachable w) {t : Nat} {J J' : ℚ} (hs : SubReady w t J J')
    (h1 : (w.lv (w.tr t).e1).subs ≠ []) (h2 : (w.lv (w.tr t).e2).subs ≠ []) : ∃ d, hSubs W t [] w = (w, .ok d) := by
  obtain ⟨w', d, hd, -⟩ := hSubs_spec hW hr.subInv hs
  refine ⟨d, ?_⟩
  have e : hSubs W t [] w = PyM.lift (w.popHTrs W t) w := by
    unfold hSubs
    rw [if_pos (by rfl), PyM.get_bind, PyM.bind_ok (assertSubs_pop h1), PyM.bind_ok (assertSubs_pop h2), PyM.get_bind]
  rw [e] at hd ⊢
  have : w' = w := (congrArg Prod.fst hd).symm
  rw [hd, this]

/-- C79 fails: in this atom the transition from F = 1 to F' = 1 exists and cannot be looked up under the names of its levels. -/
theorem C79_fails : ¬C79_full := by
  intro h
  obtain ⟨d, hd⟩ := hSubs_pop exactWig_good overlapAtom_reachable overlapAtom_ready (by decide +kernel) (by decide +kernel)
  have ht : transGet (overlapAtom.lname (overlapAtom.tr 0).e1) (overlapAtom.lname (overlapAtom.tr 0).e2) overlapAtom = (overlapAtom, .ok 0) :=
    Prod.ext (transGet_fst (by decide +kernel) (by decide +kernel)) (by decide +kernel)
  have e1 : (overlapAtom.tr 0).e1 = 0 := by decide +kernel
  have e2 : (overlapAtom.tr 0).e2 = 1 := by decide +kernel
  have hI : overlapAtom.I = 1/2 := by decide +kernel
  have hal : overlapAtom.lalias = [] := by decide +kernel
  obtain ⟨w2, d2, g1, g2, g3, g4, g5, g6, g7, g8, g9⟩ := hSubs_spec exactWig_good overlapAtom_reachable.subInv overlapAtom_ready
  rw [hd] at g1
  simp only [Prod.mk.injEq, Except.ok.injEq] at g1
  obtain ⟨rfl, rfl⟩ := g1
  obtain ⟨a, ha⟩ := hyp_all g3 g4.hJ1 g4.hI g4.s1 g4.F1 g6 (F := 1) (by decide +kernel)
  obtain ⟨b, hb⟩ := hyp_all g3 g4.hJ2 g4.hI g4.s2 g4.F2 g7 (F := 1) (by decide +kernel)
  obtain ⟨⟨x, hx⟩, -⟩ := g9 a b 1 1 ha hb (by decide +kernel) ((coupled_iff _ _ _ _ _ _).2 overlapAtom_coupled)
  obtain ⟨a', b', F1, F2, i1, i2, -, i4, -, i6⟩ := g8 _ _ hx
  rw [hKey_of ha hb, i4, hKey_of i1 i2] at i6
  have s1 := (hfFs_spin g4.hI g4.s1 i1.mem).isHalfInt
  have s2 := (hfFs_spin g4.hI g4.s2 i2.mem).isHalfInt
  have one : IsHalfInt 1 := ⟨2, by norm_num⟩
  have f12 : F1 = 1 ∧ F2 = 1 := by
    by_cases hc : overlapAtom.hypE (overlapAtom.tr 0).e1 (1/2) F1 < overlapAtom.hypE (overlapAtom.tr 0).e2 (1/2) F2 <;>
      simp only [hc, if_true, if_false, ite_self] at i6 <;>
      simp only [Prod.mk.injEq] at i6
    · exact ⟨fKey_inj s1 one i6.1, fKey_inj s2 one i6.2⟩
    · exact ⟨fKey_inj s1 one i6.2, fKey_inj s2 one i6.1⟩
  obtain ⟨rfl, rfl⟩ := f12
  obtain rfl := ha.unique i1
  obtain rfl := hb.unique i2
  have hlt : ¬overlapAtom.hypE (overlapAtom.tr 0).e2 (1/2) 1 > overlapAtom.hypE (overlapAtom.tr 0).e1 (1/2) 1 := by decide +kernel
  have el : x.lower = b := by rw [i4]; unfold mkHTr; exact if_neg hlt
  have eu : x.upper = a := by rw [i4]; unfold mkHTr; exact if_neg hlt
  obtain ⟨w', y, hy⟩ := h exactWig overlapAtom 0 (1/2) (1/2) d exactWig_good overlapAtom_reachable overlapAtom_ready overlapAtom_pair
    hal hd ht x (Dict.mem_vals_of_get hx)
  rw [el, eu] at hy
  have p := overlapAtom_pair
  obtain ⟨-, m1, n1⟩ := hyp_name overlapAtom_reachable p.spin p.fa ha
  obtain ⟨-, m2, n2⟩ := hyp_name overlapAtom_reachable p.spin p.fb hb
  have q1 := (C15_hyperfine_partial overlapAtom_reachable p.spin p.fa ha.get (by rw [hal]; rfl)).1
  have q2 := (C15_hyperfine_partial overlapAtom_reachable p.spin p.fb hb.get (by rw [hal]; rfl)).1
  rw [n1] at q1
  rw [n2] at q2
  rw [n1, n2] at hy
  have := (C79_overlap_raises exactWig ⟨fun _ => d, fun _ => []⟩ overlapAtom_reachable p m1 m2 (by decide +kernel) (by decide +kernel) ht).2
    q2 q1 ha.energy hb.energy (not_lt.1 hlt)
  rw [hy] at this
  cases this

/-- The same two levels 10000 Hz apart. -/
def apartOps : List Op :=
  [.newLevel (demoTerm 'g') 0 2 400 0 0 none, .newLevel ⟨['e'], "2P*".toList, some (1/2), none, none, 100, { l := some 1, s := some (1/2) }⟩ 10000 2 (-400) 0 0 none,
   .addLevel 0 true none, .addLevel 1 true none, .newTrans 0 1 none (.hz 1) none]

/-- The atom after these calls. -/
def apartAtom : World := runAll apartOps (emptyAtom (1/2) 0)

theorem apartAtom_reachable : Reachable apartAtom := (Reachable.empty (1/2) 0).runAll (by decide +kernel)

theorem apartAtom_ready : SubReady apartAtom 0 (1/2) (1/2) :=
  ⟨⟨1, by decide +kernel⟩, by decide +kernel, by decide +kernel, by decide +kernel, by decide +kernel, ⟨1, by norm_num⟩, ⟨1, by norm_num⟩,
    by decide +kernel, by decide +kernel⟩

theorem apartAtom_pair : Pair apartAtom (apartAtom.tr 0).e1 (apartAtom.tr 0).e2 (1/2) (1/2) :=
  ⟨⟨1, by decide +kernel⟩, ⟨by decide +kernel, by decide +kernel, by decide +kernel, ⟨1, by norm_num⟩, by decide +kernel, by decide +kernel⟩,
    ⟨by decide +kernel, by decide +kernel, by decide +kernel, ⟨1, by norm_num⟩, by decide +kernel, by decide +kernel⟩,
    by decide +kernel, by decide +kernel⟩

theorem apartAtom_coupled : Coupled (apartAtom.tr 0).allowed apartAtom.I (1/2) 1 (1/2) 1 := by
  left
  have e0 : (apartAtom.tr 0).allowed = (true, false, false) := by decide +kernel
  refine ⟨by rw [e0]; simp, ?_⟩
  have := six_half 1 1 2 2 2 1
  have e1 : half 1 = 1/2 := by unfold half; norm_num
  rw [half_one, e1] at this
  have e2 : apartAtom.I = 1/2 := by decide +kernel
  rw [e2, this]
  exact w6_ne (by decide) (by decide +kernel)

/-- The hypotheses of `C79_found_partial` hold for F = 1 to F' = 1 in this atom, so that line is found by name. -/
example : ∃ d x, hSubs exactWig 0 [] apartAtom = (apartAtom, .ok d) ∧ x ∈ d.vals ∧ ∀ dz,
    transLookup exactWig ⟨fun _ => d, dz⟩ (apartAtom.hf x.lower).term.name (apartAtom.hf x.upper).term.name apartAtom =
      (apartAtom, .ok (.hyp x)) := by
  obtain ⟨d, hd⟩ := hSubs_pop exactWig_good apartAtom_reachable apartAtom_ready (by decide +kernel) (by decide +kernel)
  have ht : transGet (apartAtom.lname (apartAtom.tr 0).e1) (apartAtom.lname (apartAtom.tr 0).e2) apartAtom = (apartAtom, .ok 0) :=
    Prod.ext (transGet_fst (by decide +kernel) (by decide +kernel)) (by decide +kernel)
  have hal : apartAtom.lalias = [] := by decide +kernel
  obtain ⟨w2, d2, g1, g2, g3, g4, g5, g6, g7, g8, g9⟩ := hSubs_spec exactWig_good apartAtom_reachable.subInv apartAtom_ready
  rw [hd] at g1
  simp only [Prod.mk.injEq, Except.ok.injEq] at g1
  obtain ⟨rfl, rfl⟩ := g1
  obtain ⟨a, ha⟩ := hyp_all g3 g4.hJ1 g4.hI g4.s1 g4.F1 g6 (F := 1) (by decide +kernel)
  obtain ⟨b, hb⟩ := hyp_all g3 g4.hJ2 g4.hI g4.s2 g4.F2 g7 (F := 1) (by decide +kernel)
  obtain ⟨⟨x, hx⟩, -⟩ := g9 a b 1 1 ha hb (by decide +kernel) ((coupled_iff _ _ _ _ _ _).2 apartAtom_coupled)
  obtain ⟨a', b', F1, F2, i1, i2, -, i4, -, i6⟩ := g8 _ _ hx
  rw [hKey_of ha hb, i4, hKey_of i1 i2] at i6
  have s1 := (hfFs_spin g4.hI g4.s1 i1.mem).isHalfInt
  have s2 := (hfFs_spin g4.hI g4.s2 i2.mem).isHalfInt
  have one : IsHalfInt 1 := ⟨2, by norm_num⟩
  have f12 : F1 = 1 ∧ F2 = 1 := by
    by_cases hc : apartAtom.hypE (apartAtom.tr 0).e1 (1/2) F1 < apartAtom.hypE (apartAtom.tr 0).e2 (1/2) F2 <;>
      simp only [hc, if_true, if_false, ite_self] at i6 <;>
      simp only [Prod.mk.injEq] at i6
    · exact ⟨fKey_inj s1 one i6.1, fKey_inj s2 one i6.2⟩
    · exact ⟨fKey_inj s1 one i6.2, fKey_inj s2 one i6.1⟩
  obtain ⟨rfl, rfl⟩ := f12
  obtain rfl := ha.unique i1
  obtain rfl := hb.unique i2
  have hlt : apartAtom.hypE (apartAtom.tr 0).e2 (1/2) 1 > apartAtom.hypE (apartAtom.tr 0).e1 (1/2) 1 := by decide +kernel
  have el : x.lower = a := by rw [i4]; unfold mkHTr; exact if_pos hlt
  have eu : x.upper = b := by rw [i4]; unfold mkHTr; exact if_pos hlt
  refine ⟨d, x, hd, Dict.mem_vals_of_get hx, fun dz => C79_found_partial exactWig_good apartAtom_reachable apartAtom_ready hd
    (Dict.mem_vals_of_get hx) apartAtom_pair (by rw [el]; exact ha.par) (by rw [eu]; exact hb.par) (by decide +kernel) ht
    (by rw [hal]; rfl) (by rw [hal]; rfl) ?_⟩
  intro y _ _ _
  rw [el, eu]
  unfold hName
  rw [ha.short, hb.short]

end AtomTk
