import Verif.Proofs.Subs
import Verif.Props.Transitions
import Verif.Props.Energies

/-! # C15, C25: looking up levels and sublevels by name; energies of sublevels over histories -/

namespace AtomTk
open Util World

/-! ## Text -/

theorem isIn_false {c : Char} {pat s : Str} (hp : c ∈ pat) (hs : c ∉ s) : isIn pat s = false := by
  induction s with
  | nil => cases pat with
    | nil => cases hp
    | cons _ _ => rfl
  | cons x xs ih =>
    unfold isIn
    rw [ih (fun h => hs (by simp [h]))]
    rw [Bool.or_false]
    by_contra hc
    rw [Bool.not_eq_false, List.isPrefixOf_iff_prefix] at hc
    exact hs (hc.subset hp)

theorem isIn_mid (pat a b : Str) : isIn pat (a ++ (pat ++ b)) = true := by
  induction a with
  | nil =>
    simp only [List.nil_append]
    cases h : pat ++ b with
    | nil =>
      simp only [List.append_eq_nil_iff] at h
      simp [isIn, h.1]
    | cons x xs =>
      unfold isIn
      rw [← h]
      simp
  | cons x a ih =>
    simp only [List.cons_append, isIn, ih, Bool.or_true]

/-- `c F=` does not occur where the only `=` follows ` F`. -/
theorem isIn_hyp (p : Char) (q : Char) (a b : Str) (ha : '=' ∉ a) (hb : '=' ∉ b) (hp : p ≠ ' ') :
    isIn [p, q, '='] (a ++ ' ' :: 'F' :: '=' :: b) = false := by
  induction a with
  | nil =>
    have h1 : isIn [p, q, '='] b = false := isIn_false (c := '=') (by simp) hb
    have h2 : [p, q, '='].isPrefixOf ('=' :: b) = false := by
      cases b with
      | nil => simp [List.isPrefixOf]
      | cons x b => cases b with
        | nil => simp [List.isPrefixOf]
        | cons y b =>
          simp only [List.isPrefixOf]
          have : ('=' == y) = false := by simp at hb ⊢; exact hb.2.1
          simp [this]
    have h3 : [p, q, '='].isPrefixOf ('F' :: '=' :: b) = false := by
      cases b with
      | nil => simp [List.isPrefixOf]
      | cons x b =>
        simp only [List.isPrefixOf]
        have : ('=' == x) = false := by simp at hb ⊢; exact hb.1
        simp [this]
    have h4 : [p, q, '='].isPrefixOf (' ' :: 'F' :: '=' :: b) = false := by simp [List.isPrefixOf, hp]
    simp only [List.nil_append, isIn, h1, h2, h3, h4, Bool.or_false]
  | cons x a ih =>
    simp only [List.mem_cons, not_or] at ha
    simp only [List.cons_append, isIn]
    rw [ih ha.2, Bool.or_false]
    cases a with
    | nil => simp [List.isPrefixOf]
    | cons y a => cases a with
      | nil => simp [List.isPrefixOf]
      | cons z a =>
        simp only [List.mem_cons, not_or] at ha
        have : ('=' == z) = false := by simpa using ha.2.2.1
        simp [List.isPrefixOf, this]

theorem rsplit1_none {c : Char} {pat s : Str} (hp : c ∈ pat) (hs : c ∉ s) : rsplit1 pat s = none := by
  induction s with
  | nil => cases pat with
    | nil => cases hp
    | cons _ _ => rfl
  | cons x xs ih =>
    unfold rsplit1
    rw [ih (fun h => hs (by simp [h]))]
    rw [if_neg]
    intro hc
    rw [List.isPrefixOf_iff_prefix] at hc
    exact hs (hc.subset hp)

theorem rsplit1_app {pat s a b : Str} (x : Str) (h : rsplit1 pat s = some (a, b)) : rsplit1 pat (x ++ s) = some (x ++ a, b) := by
  induction x with
  | nil => exact h
  | cons y x ih => simp only [List.cons_append, rsplit1, ih]

theorem rsplit1_space (a b : Str) (h : ' ' ∉ b) : rsplit1 spc (a ++ ' ' :: b) = some (a, b) := by
  have : rsplit1 spc (' ' :: b) = some ([], b) := by
    unfold rsplit1
    rw [rsplit1_none (c := ' ') (by simp [spc]) h]
    simp [spc, List.isPrefixOf]
  simpa using rsplit1_app a this

theorem rsplit1_mJ (a b : Str) (h : '=' ∉ b) : rsplit1 spcMJ (a ++ (spcMJ ++ b)) = some (a, b) := by
  have h0 : rsplit1 spcMJ b = none := rsplit1_none (c := '=') (by simp [spcMJ]) h
  have : rsplit1 spcMJ (spcMJ ++ b) = some ([], b) := by
    simp only [spcMJ] at h0 ⊢
    simp [rsplit1, h0, List.isPrefixOf]
  simpa using rsplit1_app a this

theorem frac_no {q : ℚ} (h : IsHalfInt q) {c : Char} (hc : isDig c = false) (h1 : c ≠ '-') (h2 : c ≠ '/') : c ∉ numToFrac q := by
  intro hm
  rcases numToFrac_chars h c hm with h | h | h
  · rw [h] at hc; cases hc
  · exact h1 h
  · exact h2 h

/-- The Python replacement `'mJ' → 'mF'` in a key `'mJ=1/2'`. -/
theorem replace_mJ {m : ℚ} (hm : IsHalfInt m) : pyReplace mJtxt mFtxt (mJeq ++ numToFrac m) = mKey m := by
  have hno : ∀ f s, 'm' ∉ s → replaceF mJtxt mFtxt f s = s := by
    intro f
    induction f with
    | zero => intro s _; rfl
    | succ f ih =>
      intro s hs
      cases s with
      | nil => rfl
      | cons x xs =>
        simp only [List.mem_cons, not_or] at hs
        have h0 : mJtxt.isPrefixOf (x :: xs) = false := by
          simp only [mJtxt, List.isPrefixOf]
          have : ('m' == x) = false := by simpa using hs.1
          simp [this]
        simp only [replaceF, h0]
        rw [ih xs hs.2]; rfl
  unfold pyReplace
  have h0 : 'm' ∉ ('=' :: numToFrac m) := by
    simp only [List.mem_cons, not_or]
    exact ⟨by decide, frac_no hm (by decide) (by decide) (by decide)⟩
  have h1 : mJeq ++ numToFrac m = 'm' :: 'J' :: ('=' :: numToFrac m) := rfl
  rw [h1]
  simp only [List.length_cons]
  unfold replaceF
  have h2 : mJtxt.isPrefixOf ('m' :: 'J' :: '=' :: numToFrac m) = true := by simp [mJtxt, List.isPrefixOf]
  rw [if_pos h2]
  have h3 : ('m' :: 'J' :: '=' :: numToFrac m).drop mJtxt.length = '=' :: numToFrac m := rfl
  rw [h3, hno _ _ h0]
  rfl

/-! ## Keys as texts -/

/-- `'<name> F=<f>'` -/
def hypText (n : Str) (f : ℚ) : Str := n ++ " F=".toList ++ numToFrac f
/-- `'<name> F=<f> mF=<m>'` -/
def zeeText (n : Str) (f m : ℚ) : Str := hypText n f ++ " mF=".toList ++ numToFrac m
/-- `'<name> mJ=<m>'` -/
def mJText (n : Str) (m : ℚ) : Str := n ++ " mJ=".toList ++ numToFrac m

/-- The level is registered under its name, the name contains no `=`, and it is a level with a given J. -/
structure Findable (w : World) (i : Nat) (J : ℚ) : Prop where
  reg : w.g.lev (w.lname i) = some i
  clean : '=' ∉ w.lname i
  hJ : (w.lv i).term.J = some J
  spin : IsSpin J
  hF : (w.lv i).term.F = none
  hM : (w.lv i).term.mF = none

theorem fKey_no {q : ℚ} (h : IsHalfInt q) {c : Char} (hc : isDig c = false) (h1 : c ≠ '-') (h2 : c ≠ '/') (h3 : c ≠ 'F')
    (h4 : c ≠ '=') : c ∉ fKey q := by
  simp only [fKey, Term.fEq, List.cons_append, List.nil_append, List.mem_cons, not_or]
  exact ⟨h3, h4, frac_no h hc h1 h2⟩

theorem mKey_no {q : ℚ} (h : IsHalfInt q) {c : Char} (hc : isDig c = false) (h1 : c ≠ '-') (h2 : c ≠ '/') (h3 : c ≠ 'F')
    (h4 : c ≠ '=') (h5 : c ≠ 'm') : c ∉ mKey q := by
  simp only [mKey, Term.mfEq, List.cons_append, List.nil_append, List.mem_cons, not_or]
  exact ⟨h5, h3, h4, frac_no h hc h1 h2⟩

/-! ## Indexing with a hyperfine or Zeeman key -/

theorem hfKey_mem {I J F : ℚ} (h : F ∈ hfFs I J) : fKey F ∈ (hfFs I J).map fKey := List.mem_map.2 ⟨F, h, rfl⟩

theorem lvItem_ok {w : World} (hk : KeysInv w) (hI : IsSpin w.I) {i : Nat} {J F : ℚ} (hin : (w.lv i).inAtom = true)
    (hJ : (w.lv i).term.J = some J) (hs : IsSpin J) (hF : (w.lv i).term.F = none) (hm : F ∈ hfFs w.I J) :
    ∃ w' j, lvItem i (fKey F) w = (w', .ok (.hyp j)) ∧ (w'.lv i).subs.get? (fKey F) = some j ∧
      ((w.lv i).subs ≠ [] → w' = w) := by
  have hFs := hfFs_spin hI hs hm
  have hmJ : isIn mJtxt (fKey F) = false :=
    isIn_false (c := 'm') (by simp [mJtxt]) (fKey_no hFs.isHalfInt (by decide) (by decide) (by decide) (by decide) (by decide))
  have fin : ∀ w1 : World, lazyHF i w = (w1, .ok ()) → (w1.lv i).subs.keys = (hfFs w.I J).map fKey →
      ∃ j, lvItem i (fKey F) w = (w1, .ok (.hyp j)) ∧ (w1.lv i).subs.get? (fKey F) = some j := by
    intro w1 h1 h2
    obtain ⟨j, hj⟩ := (Dict.get?_isSome (w1.lv i).subs (fKey F)).2 (by rw [h2]; exact hfKey_mem hm)
    refine ⟨j, ?_, hj⟩
    unfold lvItem
    rw [PyM.bind_ok h1, PyM.bind_ok (show PyM.get w1 = (w1, .ok w1) from rfl)]
    rw [if_neg (by rw [hmJ]; simp)]
    have : PyM.lift ((w1.lv i).subs.getE (fKey F)) w1 = (w1, .ok j) := by
      unfold PyM.lift; rw [Dict.getE_ok.2 hj]
    rw [PyM.bind_ok this]; rfl
  by_cases h0 : (w.lv i).subs = []
  · obtain ⟨w1, h1, h2⟩ := popHFs_ok i J (hfFs w.I J) w hJ hF (fun f hf => (hfFs_spin hI hs hf).nonneg)
    obtain ⟨j, h3, h4⟩ := fin w1 (by
      unfold lazyHF populateHF
      simp only [h0, List.length_nil, if_true, hin, hJ]
      exact h1) (by
      rw [h2, keys_nil h0, addKeys_new _ _ (by simpa using hfKeys_nodup hI hs)]
      simp)
    exact ⟨w1, j, h3, h4, fun h => absurd h0 h⟩
  · obtain ⟨j, h3, h4⟩ := fin w (by
      unfold lazyHF
      rw [if_neg (by simpa using h0)]) ((hk.hf hI i J hJ hs hF).resolve_left h0)
    exact ⟨w, j, h3, h4, fun _ => rfl⟩

theorem hfItem_ok {w : World} (hk : KeysInv w) {j : Nat} {J F m : ℚ} (hJ : (w.hf j).term.J = some J)
    (hF : (w.hf j).term.F = some F) (hs : IsSpin F) (hm : m ∈ zMs F) :
    ∃ w' z, hfItem j (mKey m) w = (w', .ok z) ∧ (w'.hf j).subs.get? (mKey m) = some z ∧
      ((w.hf j).subs ≠ [] → w' = w) := by
  have hmh := zMs_half hs hm
  have hmJ : isIn mJtxt (mKey m) = false :=
    isIn_false (c := 'J') (by simp [mJtxt]) (mKey_no hmh (by decide) (by decide) (by decide) (by decide) (by decide) (by decide))
  have fin : ∀ w1 : World, lazyZ j w = (w1, .ok ()) → (w1.hf j).subs.keys = (zMs F).map mKey →
      ∃ z, hfItem j (mKey m) w = (w1, .ok z) ∧ (w1.hf j).subs.get? (mKey m) = some z := by
    intro w1 h1 h2
    obtain ⟨z, hz⟩ := (Dict.get?_isSome (w1.hf j).subs (mKey m)).2 (by rw [h2]; exact List.mem_map.2 ⟨m, hm, rfl⟩)
    refine ⟨z, ?_, hz⟩
    unfold hfItem
    rw [PyM.bind_ok h1, PyM.bind_ok (show PyM.get w1 = (w1, .ok w1) from rfl)]
    rw [if_neg (by rw [hmJ]; simp)]
    unfold PyM.lift; rw [Dict.getE_ok.2 hz]
  by_cases h0 : (w.hf j).subs = []
  · obtain ⟨w1, h1, h2⟩ := popZs_ok j J F (zMs F) w hJ hF hs.nonneg
    obtain ⟨z, h3, h4⟩ := fin w1 (by
      unfold lazyZ
      simp only [h0, List.length_nil, if_true, hF]
      exact h1) (by
      rw [h2, keys_nil h0, addKeys_new _ _ (by simpa using zKeys_nodup hs)]
      simp)
    exact ⟨w1, z, h3, h4, fun h => absurd h0 h⟩
  · obtain ⟨z, h3, h4⟩ := fin w (by
      unfold lazyZ
      rw [if_neg (by simpa using h0)]) ((hk.z j J F hJ hF hs).resolve_left h0)
    exact ⟨w, z, h3, h4, fun _ => rfl⟩

theorem hfItem_lv (j : Nat) (key : Str) (w : World) : (hfItem j key w).1.lv = w.lv := by
  have hz : ∀ w : World, (lazyZ j w).1.lv = w.lv := by
    intro w
    unfold lazyZ
    split
    · split
      · exact popZs_inv (fun w1 => w1.lv = w.lv) j (fun w1 _ _ f g hw _ _ _ => hw) _ w rfl
      · rfl
    · rfl
  unfold hfItem
  refine PyM.bind_rel (fun w w' => w'.lv = w.lv) (fun a b c h1 h2 => h2.trans h1) hz (fun _ => ?_) w
  refine PyM.bind_rel (fun w w' => w'.lv = w.lv) (fun a b c h1 h2 => h2.trans h1) (fun _ => rfl) (fun w' w => ?_)
  split <;> rfl

/-! ## C15 -/

theorem levelsGet_hyp {w : World} (hg : w.g.keys.Nodup) {n : Str} {i : Nat} (hn : '=' ∉ n) (hl : w.g.lev n = some i) {F : ℚ}
    (hF : IsHalfInt F) (ha : w.lalias.get? (hypText n F) = none) : levelsGet (hypText n F) w = lvItem i (fKey F) w := by
  have e : hypText n F = n ++ ' ' :: 'F' :: '=' :: numToFrac F := by simp [hypText]
  have hfr : '=' ∉ numToFrac F := frac_no hF (by decide) (by decide) (by decide)
  have h1 : isIn Term.mfEq (hypText n F) = false := by
    rw [e]; exact isIn_hyp 'm' 'F' n _ hn hfr (by decide)
  have h2 : isIn mJeq (hypText n F) = false := by
    rw [e]; exact isIn_hyp 'm' 'J' n _ hn hfr (by decide)
  have h3 : isIn Term.fEq (hypText n F) = true := by
    have := isIn_mid Term.fEq (n ++ [' ']) (numToFrac F)
    rw [e]; simpa [Term.fEq] using this
  have h4 : rsplit spc 1 (hypText n F) = [n, fKey F] := by
    have : hypText n F = n ++ ' ' :: fKey F := by simp [hypText, fKey, Term.fEq]
    rw [this]
    simp only [rsplit, rsplit1_space n (fKey F) (fKey_no hF (by decide) (by decide) (by decide) (by decide) (by decide))]
    rfl
  unfold levelsGet
  rw [PyM.bind_ok (show PyM.get w = (w, .ok w) from rfl), ha]
  simp only [h1, h2, h3, h4, Bool.false_eq_true, if_false, if_true]
  have : PyM.lift (w.g.levelAttrs.getE n) w = (w, .ok i) := by
    unfold PyM.lift
    rw [Dict.getE_ok.2 (by rw [Graph.get?_levelAttrs _ hg]; exact hl)]
  rw [PyM.bind_ok this]

theorem levelsGet_zee {w : World} (hg : w.g.keys.Nodup) {n : Str} {i : Nat} (hl : w.g.lev n = some i) {F m : ℚ}
    (hF : IsHalfInt F) (hm : IsHalfInt m) (ha : w.lalias.get? (zeeText n F m) = none) :
    levelsGet (zeeText n F m) w = (lvItem i (fKey F) >>= fun r => refItem r (mKey m)) w := by
  have h1 : isIn Term.mfEq (zeeText n F m) = true := by
    have := isIn_mid Term.mfEq (hypText n F ++ [' ']) (numToFrac m)
    simpa [zeeText, Term.mfEq] using this
  have h4 : rsplit spc 2 (zeeText n F m) = [n, fKey F, mKey m] := by
    have e : zeeText n F m = (n ++ ' ' :: fKey F) ++ ' ' :: mKey m := by simp [zeeText, hypText, fKey, mKey, Term.fEq, Term.mfEq]
    rw [e]
    simp only [rsplit, rsplit1_space _ (mKey m) (mKey_no hm (by decide) (by decide) (by decide) (by decide) (by decide) (by decide)),
      rsplit1_space n (fKey F) (fKey_no hF (by decide) (by decide) (by decide) (by decide) (by decide))]
    rfl
  unfold levelsGet
  rw [PyM.bind_ok (show PyM.get w = (w, .ok w) from rfl), ha]
  simp only [h1, h4, if_true]
  have : PyM.lift (w.g.levelAttrs.getE n) w = (w, .ok i) := by
    unfold PyM.lift
    rw [Dict.getE_ok.2 (by rw [Graph.get?_levelAttrs _ hg]; exact hl)]
  rw [PyM.bind_ok this]

theorem levelsGet_mJ {w : World} (hg : w.g.keys.Nodup) {n : Str} {i : Nat} (hn : '=' ∉ n) (hl : w.g.lev n = some i) {J m : ℚ}
    (hJ : (w.lv i).term.J = some J) (hm : IsHalfInt m) (ha : w.lalias.get? (mJText n m) = none) :
    levelsGet (mJText n m) w = (lvItem i (fKey J) >>= fun r => refItem r (mKey m)) w := by
  have hfr : '=' ∉ numToFrac m := frac_no hm (by decide) (by decide) (by decide)
  have h1 : isIn Term.mfEq (mJText n m) = false := by
    have h0 : 'F' ∉ "J=".toList ++ numToFrac m := by
      simp only [List.mem_append, not_or]
      exact ⟨by decide, frac_no hm (by decide) (by decide) (by decide)⟩
    have : ∀ a : Str, '=' ∉ a → isIn Term.mfEq (a ++ (' ' :: 'm' :: ("J=".toList ++ numToFrac m))) = false := by
      intro a ha
      induction a with
      | nil =>
        have h2 := isIn_false (pat := Term.mfEq) (c := 'F') (by simp [Term.mfEq]) h0
        simp only [List.nil_append, isIn, h2, Bool.or_false]
        simp [Term.mfEq, List.isPrefixOf]
      | cons x a ih =>
        simp only [List.mem_cons, not_or] at ha
        simp only [List.cons_append, isIn]
        rw [ih ha.2, Bool.or_false]
        cases a with
        | nil => simp [Term.mfEq, List.isPrefixOf]
        | cons y a => cases a with
          | nil => simp [Term.mfEq, List.isPrefixOf]
          | cons z a =>
            simp only [List.mem_cons, not_or] at ha
            have : ('=' == z) = false := by simpa using ha.2.2.1
            simp [Term.mfEq, List.isPrefixOf, this]
    have := this n hn
    simpa [mJText] using this
  have h2 : isIn mJeq (mJText n m) = true := by
    have := isIn_mid mJeq (n ++ [' ']) (numToFrac m)
    simpa [mJText, mJeq] using this
  have h4 : rsplit spcMJ 1 (mJText n m) = [n, numToFrac m] := by
    have e : mJText n m = n ++ (spcMJ ++ numToFrac m) := by simp [mJText, spcMJ]
    rw [e]
    simp only [rsplit, rsplit1_mJ n _ hfr]
    rfl
  unfold levelsGet
  rw [PyM.bind_ok (show PyM.get w = (w, .ok w) from rfl), ha]
  simp only [h1, h2, h4, Bool.false_eq_true, if_false, if_true]
  have : PyM.lift (w.g.levelAttrs.getE n) w = (w, .ok i) := by
    unfold PyM.lift
    rw [Dict.getE_ok.2 (by rw [Graph.get?_levelAttrs _ hg]; exact hl)]
  rw [PyM.bind_ok this]
  have e : Term.fEq ++ jFrac (w.lv i).term = fKey J := by simp [jFrac, Term.fracText, hJ, fKey]
  rw [e]
  rfl

/-- C15 in full: in any atom, every level and every sublevel is found under its name unless an alias uses that text. -/
def C15_full : Prop := ∀ w, Reachable w →
  (∀ i, w.g.lev (w.lname i) = some i → w.lalias.get? (w.lname i) = none → (levelsGet (w.lname i) w).2 = .ok (.fine i)) ∧
  (∀ i k j, w.g.lev (w.lname i) = some i → (w.lv i).subs.get? k = some j → w.lalias.get? (w.hf j).term.name = none →
    (levelsGet (w.hf j).term.name w).2 = .ok (.hyp j)) ∧
  (∀ i k j k' z, w.g.lev (w.lname i) = some i → (w.lv i).subs.get? k = some j → (w.hf j).subs.get? k' = some z →
    w.lalias.get? (w.zl z).term.name = none → (levelsGet (w.zl z).term.name w).2 = .ok (.zee z))

theorem name_withF {t : Term} (hF : t.F = none) (hM : t.mF = none) (F : ℚ) : (t.withF F).name = hypText t.name F := by
  simp [Term.name, Term.termName, Term.withF, hypText, hF, hM, Term.fEq]

theorem name_withM {t : Term} (hF : t.F = none) (hM : t.mF = none) (F m : ℚ) :
    ((t.withF F).withM m).name = zeeText t.name F m := by
  simp [Term.name, Term.termName, Term.withF, Term.withM, zeeText, hypText, hF, hM, Term.fEq, Term.mfEq]

/-- C15, names without `=`: a fine-structure level is found under its name. -/
theorem C15_fine_partial {w : World} (hr : Reachable w) {i : Nat} {J : ℚ} (hf : Findable w i J)
    (ha : w.lalias.get? (w.lname i) = none) : levelsGet (w.lname i) w = (w, .ok (.fine i)) := by
  refine levelsGet_plain hr.wf.gok.nodup ⟨(plainKey_iff _).2 ⟨?_, ?_, ?_⟩, ha⟩ hf.reg
  · exact isIn_false (c := '=') (by simp [Term.mfEq]) hf.clean
  · exact isIn_false (c := '=') (by simp [mJeq]) hf.clean
  · exact isIn_false (c := '=') (by simp [Term.fEq]) hf.clean

/-- What a sublevel dictionary entry is. -/
theorem sub_hyp {w : World} (hr : Reachable w) {i : Nat} {J : ℚ} (hf : Findable w i J) {k : Str} {j : Nat}
    (hj : (w.lv i).subs.get? k = some j) : ∃ F, F ∈ hfFs w.I J ∧ k = fKey F ∧ (w.hf j).parent = i ∧
      (w.hf j).term = (w.lv i).term.withF F := by
  obtain ⟨h1, h2, F, h3, h4⟩ := hr.subsInv.hfOf i k j hj
  refine ⟨F, ?_, h3, h2, h4⟩
  obtain ⟨J', F', v1, v2, v3⟩ := hr.valInv.hf j h1
  rw [h2] at v3
  have v4 := v3 hf.hF
  rw [h4] at v1 v2
  simp only [Term.withF, hf.hF, Option.getD_none] at v1 v2
  rw [hf.hJ] at v1
  cases v1; cases v2; exact v4

theorem sub_zee {w : World} (hr : Reachable w) {j : Nat} {F : ℚ} (hF : (w.hf j).term.F = some F) {k : Str} {z : Nat}
    (hz : (w.hf j).subs.get? k = some z) : ∃ m, m ∈ zMs F ∧ k = mKey m ∧ (w.zl z).parent = j ∧
      (w.zl z).term = (w.hf j).term.withM m := by
  obtain ⟨h1, h2, m, h3, h4⟩ := hr.subsInv.zlOf j k z hz
  refine ⟨m, ?_, h3, h2, h4⟩
  obtain ⟨J', F', m', v1, v2, v3, v4⟩ := hr.valInv.z z h1
  rw [h4] at v2 v3
  simp only [Term.withM] at v2 v3
  rw [hF] at v2
  cases v2; cases v3; exact v4

/-- C15: a hyperfine sublevel of a registered level is found under its own name and by indexing the level, and neither
changes anything. -/
theorem C15_hyperfine_partial {w : World} (hr : Reachable w) (hI : IsSpin w.I) {i : Nat} {J : ℚ} (hf : Findable w i J) {k : Str}
    {j : Nat} (hj : (w.lv i).subs.get? k = some j) (ha : w.lalias.get? (w.hf j).term.name = none) :
    levelsGet (w.hf j).term.name w = (w, .ok (.hyp j)) ∧ refItem (.fine i) (w.hf j).term.shortName w = (w, .ok (.hyp j)) := by
  obtain ⟨F, hm, rfl, hp, ht⟩ := sub_hyp hr hf hj
  have hFs := hfFs_spin hI hf.spin hm
  have hne : (w.lv i).subs ≠ [] := by intro h; rw [h] at hj; cases hj
  obtain ⟨w', j', h1, h2, h3⟩ := lvItem_ok hr.keysInv hI (hr.wf.node _ _ hf.reg).2.1 hf.hJ hf.spin hf.hF hm
  rw [h3 hne] at h1 h2
  rw [hj] at h2
  cases h2
  have e : (w.hf j).term.name = hypText (w.lname i) F := by rw [ht]; exact name_withF hf.hF hf.hM F
  have e2 : (w.hf j).term.shortName = fKey F := by rw [ht]; simp [Term.shortName, Term.withF, hf.hF, fKey]
  refine ⟨?_, ?_⟩
  · rw [e] at ha ⊢
    rw [levelsGet_hyp hr.wf.gok.nodup hf.clean hf.reg hFs.isHalfInt ha, h1]
  · rw [e2]; exact h1

/-- C15: a Zeeman sublevel is found under its own name, by indexing step by step, and neither changes anything. -/
theorem C15_zeeman_partial {w : World} (hr : Reachable w) (hI : IsSpin w.I) {i : Nat} {J : ℚ} (hf : Findable w i J) {k k' : Str}
    {j z : Nat} (hj : (w.lv i).subs.get? k = some j) (hz : (w.hf j).subs.get? k' = some z)
    (ha : w.lalias.get? (w.zl z).term.name = none) :
    levelsGet (w.zl z).term.name w = (w, .ok (.zee z)) ∧
    (refItem (.fine i) (w.hf j).term.shortName >>= fun r => refItem r (w.zl z).term.shortName) w = (w, .ok (.zee z)) := by
  obtain ⟨F, hm, rfl, hp, ht⟩ := sub_hyp hr hf hj
  have hFs := hfFs_spin hI hf.spin hm
  have htF : (w.hf j).term.F = some F := by rw [ht]; simp [Term.withF, hf.hF]
  have htJ : (w.hf j).term.J = some J := by rw [ht]; simp [Term.withF, hf.hJ]
  obtain ⟨m, hmm, rfl, hpz, htz⟩ := sub_zee hr htF hz
  have hne : (w.lv i).subs ≠ [] := by intro h; rw [h] at hj; cases hj
  have hnz : (w.hf j).subs ≠ [] := by intro h; rw [h] at hz; cases hz
  obtain ⟨w', j', h1, h2, h3⟩ := lvItem_ok hr.keysInv hI (hr.wf.node _ _ hf.reg).2.1 hf.hJ hf.spin hf.hF hm
  rw [h3 hne] at h1 h2
  rw [hj] at h2
  cases h2
  obtain ⟨w'', z', g1, g2, g3⟩ := hfItem_ok hr.keysInv htJ htF hFs hmm
  rw [g3 hnz] at g1 g2
  rw [hz] at g2
  cases g2
  have e : (w.zl z).term.name = zeeText (w.lname i) F m := by
    rw [htz, ht]; exact name_withM hf.hF hf.hM F m
  have e2 : (w.hf j).term.shortName = fKey F := by rw [ht]; simp [Term.shortName, Term.withF, hf.hF, fKey]
  have e3 : (w.zl z).term.shortName = mKey m := by rw [htz]; simp [Term.shortName, Term.withM, mKey]
  have step : (lvItem i (fKey F) >>= fun r => refItem r (mKey m)) w = (w, .ok (.zee z)) := by
    rw [PyM.bind_ok h1]
    show (hfItem j (mKey m) >>= fun k => pure (Ref.zee k)) w = _
    rw [PyM.bind_ok g1]; rfl
  refine ⟨?_, ?_⟩
  · rw [e] at ha ⊢
    rw [levelsGet_zee hr.wf.gok.nodup hf.reg hFs.isHalfInt (zMs_half hFs hmm) ha, step]
  · rw [e2, e3]; exact step

/-- C15: every member of the multiplet can be looked up, populated before or not: the text finds a sublevel with these
quantum numbers, which carries that text as its name, and finds the same object from then on. -/
theorem C15_complete_partial {w : World} (hr : Reachable w) (hI : IsSpin w.I) {i : Nat} {J F m : ℚ} (hf : Findable w i J)
    (hF : F ∈ hfFs w.I J) (hm : m ∈ zMs F) (ha : w.lalias.get? (hypText (w.lname i) F) = none)
    (hz : w.lalias.get? (zeeText (w.lname i) F m) = none) :
    (∃ w' j, levelsGet (hypText (w.lname i) F) w = (w', .ok (.hyp j)) ∧ (w'.hf j).term = { (w.lv i).term with F := some F } ∧
      (w'.hf j).term.name = hypText (w.lname i) F ∧ (w'.hf j).parent = i ∧
      levelsGet (hypText (w.lname i) F) w' = (w', .ok (.hyp j))) ∧
    (∃ w' z, levelsGet (zeeText (w.lname i) F m) w = (w', .ok (.zee z)) ∧
      (w'.zl z).term = { (w.lv i).term with F := some F, mF := some m } ∧
      (w'.zl z).term.name = zeeText (w.lname i) F m ∧ (w'.hf (w'.zl z).parent).parent = i ∧
      levelsGet (zeeText (w.lname i) F m) w' = (w', .ok (.zee z))) := by
  have hFs := hfFs_spin hI hf.spin hF
  have hmh := zMs_half hFs hm
  have hin := (hr.wf.node _ _ hf.reg).2.1
  obtain ⟨w1, j, h1, h2, h3⟩ := lvItem_ok hr.keysInv hI hin hf.hJ hf.spin hf.hF hF
  have get1 : levelsGet (hypText (w.lname i) F) w = (w1, .ok (.hyp j)) := by
    rw [levelsGet_hyp hr.wf.gok.nodup hf.clean hf.reg hFs.isHalfInt ha, h1]
  have hr1 : Reachable w1 := by
    have := Reachable.step (.getLevel (hypText (w.lname i) F)) hr trivial
    rw [show ((Op.getLevel (hypText (w.lname i) F)).run w).1 = (levelsGet (hypText (w.lname i) F) w).1 from Op.void_fst _ _, get1] at this
    exact this
  have l1 : LFrame w w1 := by
    have := levelsGet_frame (hypText (w.lname i) F) w
    rw [get1] at this; exact this
  have keepF : ∀ {w'}, LFrame w w' → Findable w' i J ∧ w'.lname i = w.lname i ∧ (w'.lv i).term = (w.lv i).term := by
    intro w' l
    obtain ⟨s, hs⟩ := l.lv i
    have hn : w'.lname i = w.lname i := by unfold lname; rw [hs]
    exact ⟨⟨by rw [hn, l.g]; exact hf.reg, by rw [hn]; exact hf.clean, by rw [hs]; exact hf.hJ, hf.spin, by rw [hs]; exact hf.hF,
      by rw [hs]; exact hf.hM⟩, hn, by rw [hs]⟩
  obtain ⟨hf1, hn1, ht1⟩ := keepF l1
  obtain ⟨F', hF', hk', hp, ht⟩ := sub_hyp hr1 hf1 h2
  rw [l1.I] at hF'
  obtain rfl : F = F' := fKey_inj hFs.isHalfInt (hfFs_spin hI hf.spin hF').isHalfInt hk'
  have e1 : (w1.hf j).term.name = hypText (w.lname i) F := by
    rw [ht, name_withF hf1.hF hf1.hM F]
    show hypText (w1.lname i) F = _
    rw [hn1]
  refine ⟨⟨w1, j, get1, ?_, e1, hp, ?_⟩, ?_⟩
  · rw [ht, ht1]; simp [Term.withF, hf.hF, hf.hM]
  · have := (C15_hyperfine_partial hr1 (by rw [l1.I]; exact hI) hf1 h2 (by rw [e1, l1.lalias]; exact ha)).1
    rwa [e1] at this
  · have htF : (w1.hf j).term.F = some F := by rw [ht]; simp [Term.withF, hf1.hF]
    have htJ : (w1.hf j).term.J = some J := by rw [ht]; simp [Term.withF, hf1.hJ]
    obtain ⟨w2, z, g1, g2, _⟩ := hfItem_ok hr1.keysInv htJ htF hFs hm
    have get2 : levelsGet (zeeText (w.lname i) F m) w = (w2, .ok (.zee z)) := by
      rw [levelsGet_zee hr.wf.gok.nodup hf.reg hFs.isHalfInt hmh hz, PyM.bind_ok h1]
      show (hfItem j (mKey m) >>= fun k => pure (Ref.zee k)) w1 = _
      rw [PyM.bind_ok g1]; rfl
    have hr2 : Reachable w2 := by
      have := Reachable.step (.getLevel (zeeText (w.lname i) F m)) hr trivial
      rw [show ((Op.getLevel (zeeText (w.lname i) F m)).run w).1 = (levelsGet (zeeText (w.lname i) F m) w).1 from Op.void_fst _ _, get2] at this
      exact this
    have l12 : LFrame w1 w2 := by
      have := hfItem_frame j (mKey m) w1
      rw [g1] at this; exact this
    have l2 := LFrame.trans _ _ _ l1 l12
    obtain ⟨hf2, hn2, ht2⟩ := keepF l2
    have hj2 : (w2.lv i).subs.get? (fKey F) = some j := by
      have : (w2.lv i).subs = (w1.lv i).subs := by
        have := hfItem_lv j (mKey m) w1
        rw [g1] at this
        rw [show w2.lv = w1.lv from this]
      rw [this]; exact h2
    obtain ⟨F', hF', hk', hp2, ht2'⟩ := sub_hyp hr2 hf2 hj2
    rw [l2.I] at hF'
    obtain rfl : F = F' := fKey_inj hFs.isHalfInt (hfFs_spin hI hf.spin hF').isHalfInt hk'
    have htF2 : (w2.hf j).term.F = some F := by rw [ht2']; simp [Term.withF, hf2.hF]
    obtain ⟨m', hm', hk'', hpz, htz⟩ := sub_zee hr2 htF2 g2
    obtain rfl : m = m' := mKey_inj hmh (zMs_half hFs hm') hk''
    have e2 : (w2.zl z).term.name = zeeText (w.lname i) F m := by
      rw [htz, ht2', name_withM hf2.hF hf2.hM F m]
      show zeeText (w2.lname i) F m = _
      rw [hn2]
    refine ⟨w2, z, get2, ?_, e2, by rw [hpz, hp2], ?_⟩
    · rw [htz, ht2', ht2]; simp [Term.withF, Term.withM, hf.hF]
    · have := (C15_zeeman_partial hr2 (by rw [l2.I]; exact hI) hf2 hj2 g2 (by rw [e2, l2.lalias]; exact hz)).1
      rwa [e2] at this

/-- C15, no nuclear spin: the `mJ=` spelling, on the atom and on the level, is the same lookup as `F=J mF=`. -/
theorem C15_mJ_partial {w : World} (hr : Reachable w) (hI : w.I = 0) {i : Nat} {J m : ℚ} (hf : Findable w i J) (hm : m ∈ zMs J)
    (ha : w.lalias.get? (mJText (w.lname i) m) = none) (hz : w.lalias.get? (zeeText (w.lname i) J m) = none) :
    levelsGet (mJText (w.lname i) m) w = levelsGet (zeeText (w.lname i) J m) w ∧
    refItem (.fine i) ("mJ=".toList ++ numToFrac m) w = levelsGet (zeeText (w.lname i) J m) w := by
  have hmh := zMs_half hf.spin hm
  have hIs : IsSpin w.I := ⟨0, by simp [hI]⟩
  have hJm : J ∈ hfFs w.I J := by
    obtain ⟨n, hn, hn'⟩ := spin_count hIs hf.spin
    refine (mem_arange_nat hn J).2 ⟨0, ?_, ?_⟩
    · rw [hI] at hn'
      have : (n : ℚ) = 1 := by rw [hn', min_eq_left hf.spin.nonneg]; norm_num
      have : n = 1 := by exact_mod_cast this
      omega
    · rw [hI]; simp [abs_of_nonneg hf.spin.nonneg]
  refine ⟨by rw [levelsGet_mJ hr.wf.gok.nodup hf.clean hf.reg hf.hJ hmh ha,
    levelsGet_zee hr.wf.gok.nodup hf.reg hf.spin.isHalfInt hmh hz], ?_⟩
  rw [levelsGet_zee hr.wf.gok.nodup hf.reg hf.spin.isHalfInt hmh hz]
  obtain ⟨w1, j, h1, h2, h3⟩ := lvItem_ok hr.keysInv hIs (hr.wf.node _ _ hf.reg).2.1 hf.hJ hf.spin hf.hF hJm
  rw [PyM.bind_ok h1]
  show lvItem i (mJeq ++ numToFrac m) w = (hfItem j (mKey m) >>= fun k => pure (Ref.zee k)) w1
  have hl1 : LFrame w w1 := by
    have := lvItem_frame i (fKey J) w
    rw [h1] at this; exact this
  have hlz : lazyHF i w = (w1, .ok ()) := by
    unfold lvItem at h1
    cases hl : lazyHF i w with
    | mk wa r => cases r with
      | error e => rw [PyM.bind_err hl] at h1; cases h1
      | ok u =>
        rw [PyM.bind_ok hl, PyM.bind_ok (show PyM.get wa = (wa, .ok wa) from rfl)] at h1
        split at h1
        · rename_i hc
          have : isIn mJtxt (fKey J) = false := isIn_false (c := 'm') (by simp [mJtxt])
            (fKey_no hf.spin.isHalfInt (by decide) (by decide) (by decide) (by decide) (by decide))
          rw [this] at hc; simp at hc
        · cases hg : (wa.lv i).subs.getE (fKey J) with
          | error e =>
            rw [PyM.bind_err (show PyM.lift ((wa.lv i).subs.getE (fKey J)) wa = (wa, .error e) by unfold PyM.lift; rw [hg])] at h1
            cases h1
          | ok v =>
            rw [PyM.bind_ok (show PyM.lift ((wa.lv i).subs.getE (fKey J)) wa = (wa, .ok v) by unfold PyM.lift; rw [hg])] at h1
            cases h1; rfl
  unfold lvItem
  rw [PyM.bind_ok hlz, PyM.bind_ok (show PyM.get w1 = (w1, .ok w1) from rfl)]
  rw [if_pos ⟨by rw [hl1.I]; exact hI, by
    have := isIn_mid mJtxt [] ('=' :: numToFrac m)
    simpa [mJtxt, mJeq] using this⟩]
  have e : Term.fEq ++ jFrac (w1.lv i).term = fKey J := by
    obtain ⟨s, hs⟩ := hl1.lv i
    simp [jFrac, Term.fracText, hs, hf.hJ, fKey]
  rw [e, PyM.bind_ok (show PyM.lift ((w1.lv i).subs.getE (fKey J)) w1 = (w1, .ok j) by unfold PyM.lift; rw [Dict.getE_ok.2 h2])]
  rw [replace_mJ hmh]

/-- A level whose configuration contains `F=`. -/
def oddOps : List Op := [.newLevel { demoTerm 'g' with conf := "F=".toList } 0 2 0 0 0 none, .addLevel 0 false none]

/-- C15 is false for names that contain `F=`: the level cannot be looked up. -/
theorem C15_fails : ¬C15_full := by
  intro h
  have := (h _ (demo_reachable (ops := oddOps) (by decide +kernel))).1 0 (by decide +kernel) (by decide +kernel)
  revert this
  decide +kernel

/-- The hypotheses of the C15 theorems for `g 2S1/2` in an atom with I = 1/2. -/
example : let w := runAll hfOps (emptyAtom (1/2) 0)
    w.g.lev (w.lname 0) = some 0 ∧ '=' ∉ w.lname 0 ∧ (w.lv 0).term.J = some (1/2) ∧ (w.lv 0).term.F = none ∧
    (w.lv 0).term.mF = none ∧ (w.lv 0).subs.get? "F=1".toList = some 1 ∧ (w.hf 1).subs.get? "mF=0".toList = some 1 ∧
    w.lalias = [] ∧ (w.zl 1).term.name = "g 2S1/2 F=1 mF=0".toList ∧ zeeText (w.lname 0) 1 0 = "g 2S1/2 F=1 mF=0".toList ∧
    (levelsGet "g 2S1/2 F=1 mF=0".toList w).2 = .ok (.zee 1) := by decide +kernel

example : Reachable (runAll hfOps (emptyAtom (1/2) 0)) := (Reachable.empty _ _).runAll (by decide +kernel)

/-- I = 0: the two spellings. -/
example : let w := runAll (hfOps.take 4) (emptyAtom 0 0)
    w.g.lev (w.lname 0) = some 0 ∧ (levelsGet "g 2S1/2 mJ=-1/2".toList w).2 = .ok (.zee 0) ∧
    (levelsGet "g 2S1/2 F=1/2 mF=-1/2".toList w).2 = .ok (.zee 0) := by decide +kernel

/-! ## C25 -/

/-- The g factor of a hyperfine level, written out. -/
def gFactor (gJ I J F : ℚ) : ℚ := if F = 0 then 0 else gJ * (F * (F + 1) + J * (J + 1) - I * (I + 1)) / (2 * F * (F + 1))

/-- The energy of the Zeeman sublevel `z` is what the current constants of its level, the current field and the
nuclear spin give. -/
def FollowsConstants (w : World) (z : Nat) : Prop := ∀ i J F m s, i = w.owner (.zee z) → (w.zl z).term.J = some J →
  (w.zl z).term.F = some F → (w.zl z).term.mF = some m → hfShift (w.lv i).hfA (w.lv i).hfB (w.lv i).hfC w.I J F = .ok s →
  w.refHz (.zee z) = .ok (w.eHz i + s + gFactor (w.lv i).lande w.I J F * m * muB * w.B + (w.zl z).quad * w.B ^ 2)

/-- C25 in full: for every history. -/
def C25_full : Prop := ∀ w z, Reachable w → z < w.nzl → FollowsConstants w z

/-- A history in which Landé factors of levels with accessed Zeeman sublevels are never changed; all the other
constants, energies and the field may be assigned at any time. -/
def TimelyAll : List Op → World → Prop
  | [], _ => True
  | op :: ops, w => op.Sane w ∧ (∀ i l A B D, op = .setConsts i l A B D → Timely w i l) ∧ TimelyAll ops (op.run w).1

theorem TimelyAll.steps {ops : List Op} {w : World} (h : TimelyAll ops w) : SSteps Timely w (runAll ops w) := by
  induction ops generalizing w with
  | nil => exact .refl
  | cons op ops ih => exact (step_steps op w h.1 h.2.1).trans (ih h.2.2)

/-- C25, part that holds: sublevel energies follow A, B, C, the level energies, the quadratic shift and the field
whenever those are changed, and g_J as long as it is assigned before the Zeeman sublevels are first accessed. -/
theorem C25_current_partial (I B : ℚ) (ops : List Op) (h : TimelyAll ops (emptyAtom I B)) (z : Nat)
    (hz : z < (runAll ops (emptyAtom I B)).nzl) : FollowsConstants (runAll ops (emptyAtom I B)) z := by
  have hst := h.steps
  have hs : SubsInv (emptyAtom I B) := emptyAtom_subsInv I B
  have hm : MadeInv (emptyAtom I B) := emptyAtom_madeInv I B
  have hg : GInv (runAll ops (emptyAtom I B)) := GInv.steps (by intro _ h; cases h) hm hs hst
  have hM := hm.steps hs hst
  generalize runAll ops (emptyAtom I B) = w at *
  intro i J F m s hi hJ hF hmm hsh
  subst hi
  obtain ⟨J', F', g1, g2, g3⟩ := hg z hz
  rw [hJ] at g1; rw [hF] at g2
  cases g1; cases g2
  obtain ⟨_, m', htz⟩ := hM.zlMade z hz
  have hJ' : (w.hf (w.zl z).parent).term.J = some J := by rw [htz] at hJ; exact hJ
  have hF' : (w.hf (w.zl z).parent).term.F = some F := by rw [htz] at hF; exact hF
  have hgF : (w.zl z).gF = gFactor (w.lv (w.hf (w.zl z).parent).parent).lande w.I J F := by
    unfold compGF at g3
    unfold gFactor
    by_cases h0 : F = 0
    · rw [if_neg (by simpa using h0)] at g3
      rw [if_pos h0]
      exact (Except.ok.inj g3).symm
    · rw [if_pos h0] at g3
      rw [if_neg h0]
      unfold pyDiv at g3
      split at g3
      · cases g3
      · exact (Except.ok.inj g3).symm
  show w.zHz z = _
  unfold zHz hHz hShift zShiftHz
  simp only [hJ', hF', hmm]
  simp only [World.owner] at hsh
  rw [hsh]
  simp only [bind, Except.bind, zShift, hgF, World.owner]
  congr 1
  ring

/-- `g_J` changed after the Zeeman sublevels were accessed. -/
def staleOps : List Op := hfOps ++ [.setB 1, .getLevel "g 2S1/2 F=1 mF=1".toList, .setConsts 0 1 4 0 0]

/-- C25 is false: after `level.lande` is changed, Zeeman sublevels accessed before keep the shift of the old value. -/
theorem C25_fails : ¬C25_full := by
  intro h
  have := h (runAll staleOps (emptyAtom (1/2) 0)) 2 ((Reachable.empty _ _).runAll (by decide +kernel)) (by decide +kernel)
    0 (1/2) 1 1 1 (by decide +kernel) (by decide +kernel) (by decide +kernel) (by decide +kernel) (by decide +kernel)
  revert this
  decide +kernel

/-- A, B and the field changed after access: the energy follows. -/
example : let ops := hfOps ++ [.setB 1, .setConsts 0 2 8 0 0]
    let w := runAll ops (emptyAtom (1/2) 0)
    2 < w.nzl ∧ (w.zl 2).term.mF = some 1 ∧ w.refHz (.zee 2) = .ok (100 + 2 + muB) := by decide +kernel

example : TimelyAll (hfOps ++ [.setB 1, .setConsts 0 2 8 0 0]) (emptyAtom (1/2) 0) := by
  have h0 : ∀ (w : World) (op : Op), (∀ i l A B D, op ≠ .setConsts i l A B D) → ∀ i l A B D, op = .setConsts i l A B D → Timely w i l :=
    fun _ _ h i l A B D e => absurd e (h i l A B D)
  refine ⟨by decide +kernel, h0 _ _ (by simp), by decide +kernel, h0 _ _ (by simp), by decide +kernel, h0 _ _ (by simp),
    by decide +kernel, h0 _ _ (by simp), by decide +kernel, h0 _ _ (by simp), by decide +kernel, h0 _ _ (by simp),
    by decide +kernel, h0 _ _ (by simp), by decide +kernel, ?_, trivial⟩
  rintro i l A B D h
  cases h
  left
  decide +kernel

end AtomTk
