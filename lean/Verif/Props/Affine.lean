import Verif.Props.Enforce
import Verif.Props.Container

/-!
# The unit and the zero of energy: C145

All energies are multiplied by `k > 0` and shifted by `c`: the atom behaves in the same way.
-/

namespace AtomTk
open Util World

/-- The level in the other unit, counted from the other zero. -/
def ELevel.aff (k c : ℚ) (e : ELevel) : ELevel :=
  { e with levelHz := k * e.levelHz + c, hfA := k * e.hfA, hfB := k * e.hfB, hfC := k * e.hfC }

/-- The quadratic Zeeman coefficient multiplies the square of the field. -/
def ZLvl.aff (k : ℚ) (z : ZLvl) : ZLvl := { z with quad := z.quad / k }

/-- The frequency set for a transition is a difference of energies. -/
def Trans.aff (k : ℚ) (t : Trans) : Trans := { t with setFreq := t.setFreq.map (k * ·) }

/-- The atom in the other unit, counted from the other zero; the field is measured by the shift it causes. -/
def World.aff (k c : ℚ) (w : World) : World :=
  { w with B := k * w.B, lv := fun i => (w.lv i).aff k c, zl := fun z => (w.zl z).aff k, tr := fun t => (w.tr t).aff k }

/-- The call in the other unit, counted from the other zero. -/
def Op.aff (k c : ℚ) : Op → Op
  | .newLevel t E l A B C ali => .newLevel t (k * E + c) l (k * A) (k * B) (k * C) ali
  | .setEnergy i v => .setEnergy i (k * v + c)
  | .setHEnergy j v => .setHEnergy j (k * v + c)
  | .setZEnergy z v => .setZEnergy z (k * v + c)
  | .setConsts i l A B C => .setConsts i l (k * A) (k * B) (k * C)
  | .setQuad z q => .setQuad z (q / k)
  | .setB b => .setB (k * b)
  | .newTrans a b f A ali => .newTrans a b (f.map (k * ·)) A ali
  | .setFrequency σ t f => .setFrequency σ t (k * f)
  | op => op

/-- The call `m'` in the other unit does what `m` does, from the state `w`. -/
def AffAt {α : Type} (k c : ℚ) (w : World) (m m' : PyM α) : Prop := m' (w.aff k c) = ((m w).1.aff k c, (m w).2)

section
variable {k c : ℚ}

theorem AffAt.bind {α β : Type} {w : World} {m m' : PyM α} {f f' : α → PyM β} (h : AffAt k c w m m')
    (hf : ∀ a w1, m w = (w1, Except.ok a) → AffAt k c w1 (f a) (f' a)) : AffAt k c w (m >>= f) (m' >>= f') := by
  unfold AffAt at *
  rw [PyM.bind_def, PyM.bind_def, h]
  rcases hm : m w with ⟨w1, r⟩
  cases r with
  | error e => rfl
  | ok a => exact hf a w1 hm

theorem AffAt.get {β : Type} {w : World} {f f' : World → PyM β} (h : AffAt k c w (f w) (f' (w.aff k c))) :
    AffAt k c w (PyM.get >>= f) (PyM.get >>= f') := h

theorem AffAt.const {α : Type} (w : World) (r : Py α) : AffAt k c w (PyM.lift r) (PyM.lift r) := rfl
theorem AffAt.raise {α : Type} (w : World) (e : PyErr) : AffAt k c w (PyM.raise e : PyM α) (PyM.raise e) := rfl
theorem AffAt.pure {α : Type} (w : World) (a : α) : AffAt k c w (Pure.pure a : PyM α) (Pure.pure a) := rfl

/-! ## Parts of the state -/

@[simp] theorem aff_lname (w : World) (i : Nat) : (w.aff k c).lname i = w.lname i := rfl
@[simp] theorem aff_eHz (w : World) (i : Nat) : (w.aff k c).eHz i = k * w.eHz i + c := rfl

theorem upd_map {α : Type} (f : α → α) (h : Nat → α) (i : Nat) (a : α) : (fun j => f (upd h i a j)) = upd (fun j => f (h j)) i (f a) := by
  funext j
  by_cases e : j = i
  · subst e; simp
  · simp [upd_ne _ _ _ e]

theorem aff_setLv (w : World) (i : Nat) (e : ELevel) : (w.setLv i e).aff k c = (w.aff k c).setLv i (e.aff k c) := by
  unfold World.aff setLv
  simp only [upd_map]

theorem aff_setZl (w : World) (z : Nat) (e : ZLvl) : (w.setZl z e).aff k c = (w.aff k c).setZl z (e.aff k) := by
  unfold World.aff setZl
  simp only [upd_map]

theorem aff_setTr (w : World) (t : Nat) (e : Trans) : (w.setTr t e).aff k c = (w.aff k c).setTr t (e.aff k) := by
  unfold World.aff setTr
  simp only [upd_map]

theorem aff_setE (w : World) (i : Nat) (v : ℚ) : (w.setE i v).aff k c = (w.aff k c).setE i (k * v + c) := by
  unfold setE
  rw [aff_setLv]
  rfl

theorem aff_setFixed (w : World) (i : Nat) (b : Bool) : (w.setFixed i b).aff k c = (w.aff k c).setFixed i b := by
  unfold setFixed
  rw [aff_setLv]
  rfl

/-! ## Energies -/

theorem hfShift_scale (A B C I J F : ℚ) : hfShift (k * A) (k * B) (k * C) I J F = (hfShift A B C I J F).map (k * ·) := by
  rw [hfShift_ok, hfShift_ok]
  show _ = Except.ok _
  congr 1
  ring

theorem aff_hShift (w : World) (j : Nat) : (w.aff k c).hShift j = (w.hShift j).map (k * ·) := by
  unfold hShift
  show (match (w.hf j).term.J, (w.hf j).term.F with
    | some J, some F => hfShift (k * (w.lv (w.hf j).parent).hfA) (k * (w.lv (w.hf j).parent).hfB) (k * (w.lv (w.hf j).parent).hfC) w.I J F
    | _, _ => Except.error PyErr.TypeError) = _
  cases (w.hf j).term.J with
  | none => rfl
  | some J =>
    cases (w.hf j).term.F with
    | none => rfl
    | some F => exact hfShift_scale _ _ _ _ _ _

theorem aff_hHz (w : World) (j : Nat) : (w.aff k c).hHz j = (w.hHz j).map (k * · + c) := by
  unfold hHz
  rw [aff_hShift]
  cases w.hShift j with
  | error e => rfl
  | ok s =>
    show Except.ok _ = Except.ok _
    congr 1
    show k * w.eHz (w.hf j).parent + c + k * s = k * (w.eHz (w.hf j).parent + s) + c
    ring

theorem aff_zShiftHz (hk : k ≠ 0) (w : World) (z : Nat) : (w.aff k c).zShiftHz z = (w.zShiftHz z).map (k * ·) := by
  unfold zShiftHz
  show (match (w.zl z).term.mF with
    | some m => Except.ok (zShift (w.zl z).gF m ((w.zl z).quad / k) (k * w.B))
    | none => Except.error PyErr.TypeError) = _
  cases (w.zl z).term.mF with
  | none => rfl
  | some m =>
    show Except.ok _ = Except.ok _
    congr 1
    unfold zShift
    field_simp

theorem aff_zHz (hk : k ≠ 0) (w : World) (z : Nat) : (w.aff k c).zHz z = (w.zHz z).map (k * · + c) := by
  unfold zHz
  rw [aff_zShiftHz hk]
  show (do let p ← (w.aff k c).hHz (w.zl z).parent; let s ← (w.zShiftHz z).map (k * ·); Except.ok (p + s)) = _
  rw [aff_hHz]
  cases w.hHz (w.zl z).parent with
  | error e => rfl
  | ok p =>
    cases w.zShiftHz z with
    | error e => rfl
    | ok s =>
      show Except.ok _ = Except.ok _
      congr 1
      ring

theorem aff_refHz (hk : k ≠ 0) (w : World) (r : Ref) : (w.aff k c).refHz r = (w.refHz r).map (k * · + c) := by
  cases r with
  | fine i => rfl
  | hyp j => exact aff_hHz w j
  | zee z => exact aff_zHz hk w z

theorem aff_freqHz (hk : 0 < k) (w : World) (t : Nat) : (w.aff k c).freqHz t = k * w.freqHz t := by
  unfold freqHz
  show |(k * w.eHz (w.tr t).e1 + c) - (k * w.eHz (w.tr t).e2 + c)| = _
  rw [show (k * w.eHz (w.tr t).e1 + c) - (k * w.eHz (w.tr t).e2 + c) = k * (w.eHz (w.tr t).e1 - w.eHz (w.tr t).e2) by ring, abs_mul, abs_of_pos hk]

theorem aff_le (hk : 0 < k) (a b : ℚ) : k * a + c ≤ k * b + c ↔ a ≤ b := by
  rw [add_le_add_iff_right, mul_le_mul_iff_right₀ hk]

theorem aff_lt (hk : 0 < k) (a b : ℚ) : k * a + c < k * b + c ↔ a < b := by
  rw [add_lt_add_iff_right, mul_lt_mul_iff_right₀ hk]

/-! ## Setting energies of sublevels -/

theorem setHLevel_aff (j : Nat) (v : ℚ) (w : World) : AffAt k c w (setHLevel j v) (setHLevel j (k * v + c)) := by
  unfold AffAt setHLevel
  rw [aff_hHz]
  cases w.hHz j with
  | error e => rfl
  | ok cur =>
    show (_, _) = (_, _)
    congr 1
    rw [aff_setE]
    show (w.aff k c).setE (w.hf j).parent (k * w.eHz (w.hf j).parent + c + (k * v + c - (k * cur + c))) = _
    congr 1
    ring

theorem setZLevel_aff (hk : k ≠ 0) (z : Nat) (v : ℚ) (w : World) : AffAt k c w (setZLevel z v) (setZLevel z (k * v + c)) := by
  unfold AffAt setZLevel
  rw [aff_zHz hk]
  show (match (w.zHz z).map (k * · + c), (w.aff k c).hHz (w.zl z).parent with
    | Except.ok cur, Except.ok p => setHLevel (w.zl z).parent (p + (k * v + c - cur)) (w.aff k c)
    | Except.error e, _ => (w.aff k c, Except.error e)
    | _, Except.error e => (w.aff k c, Except.error e)) = _
  rw [aff_hHz]
  cases w.zHz z with
  | error e => rfl
  | ok cur =>
    cases w.hHz (w.zl z).parent with
    | error e => rfl
    | ok p =>
      show setHLevel (w.zl z).parent (k * p + c + (k * v + c - (k * cur + c))) (w.aff k c) = _
      rw [show k * p + c + (k * v + c - (k * cur + c)) = k * (p + (v - cur)) + c by ring]
      exact setHLevel_aff _ _ w

/-! ## Sublevels -/

theorem popHF1_aff (i : Nat) (f : ℚ) (w : World) : AffAt k c w (popHF1 i f) (popHF1 i f) := by
  unfold AffAt popHF1
  show (match (w.lv i).term.makeCopy (.num f) .none with
    | Except.error e => (w.aff k c, Except.error e)
    | Except.ok t => match t.J, t.F with
      | some J, some F => match compGF (w.lv i).lande w.I J F with
        | Except.error e => (w.aff k c, Except.error e)
        | Except.ok g => ({ w.aff k c with
            nhf := w.nhf + 1
            hf := upd w.hf w.nhf ⟨t, i, g, []⟩
            lv := upd (w.aff k c).lv i { (w.lv i).aff k c with subs := (w.lv i).subs.set (fKey f) w.nhf } }, Except.ok ())
      | _, _ => (w.aff k c, Except.error PyErr.TypeError)) = _
  rcases (w.lv i).term.makeCopy (.num f) .none with e | t
  · rfl
  · simp only
    rcases t.J with _ | J
    · rfl
    rcases t.F with _ | F
    · rfl
    simp only
    rcases compGF (w.lv i).lande w.I J F with e | g
    · rfl
    · simp only [World.aff, upd_map]
      rfl

theorem popHFs_aff (i : Nat) (l : List ℚ) (w : World) : AffAt k c w (popHFs i l) (popHFs i l) := by
  induction l generalizing w with
  | nil => exact .pure w ()
  | cons f fs ih =>
    unfold popHFs
    exact AffAt.bind (popHF1_aff i f w) fun _ w1 _ => ih w1

theorem populateHF_aff (i : Nat) (w : World) : AffAt k c w (populateHF i) (populateHF i) := by
  unfold AffAt populateHF
  show (if (w.lv i).inAtom then match (w.lv i).term.J with
    | some J => popHFs i (hfFs w.I J) (w.aff k c)
    | none => (w.aff k c, Except.error PyErr.TypeError)
    else (w.aff k c, Except.ok ())) = _
  split
  · cases (w.lv i).term.J with
    | none => rfl
    | some J => exact popHFs_aff i _ w
  · rfl

theorem lazyHF_aff (i : Nat) (w : World) : AffAt k c w (lazyHF i) (lazyHF i) := by
  unfold AffAt lazyHF
  show (if (w.lv i).subs.length = 0 then if (w.lv i).inAtom then populateHF i (w.aff k c) else (w.aff k c, Except.error PyErr.AttributeError)
    else (w.aff k c, Except.ok ())) = _
  split
  · split
    · exact populateHF_aff i w
    · rfl
  · rfl

theorem popZ1_aff (j : Nat) (m : ℚ) (w : World) : AffAt k c w (popZ1 j m) (popZ1 j m) := by
  unfold AffAt popZ1
  show (match (w.hf j).term.makeCopy .none (.num m) with
    | Except.error e => (w.aff k c, Except.error e)
    | Except.ok t => match t.J, t.F with
      | some J, some F => match compGF (w.lv (w.hf j).parent).lande w.I J F with
        | Except.error e => (w.aff k c, Except.error e)
        | Except.ok g => ({ w.aff k c with
            nzl := w.nzl + 1
            zl := upd (w.aff k c).zl w.nzl ⟨t, j, g, 0⟩
            hf := upd w.hf j { w.hf j with subs := (w.hf j).subs.set (mKey m) w.nzl } }, Except.ok ())
      | _, _ => (w.aff k c, Except.error PyErr.TypeError)) = _
  rcases (w.hf j).term.makeCopy .none (.num m) with e | t
  · rfl
  · simp only
    rcases t.J with _ | J
    · rfl
    rcases t.F with _ | F
    · rfl
    simp only
    rcases compGF (w.lv (w.hf j).parent).lande w.I J F with e | g
    · rfl
    · simp only [World.aff, upd_map]
      simp [ZLvl.aff]

theorem popZs_aff (j : Nat) (l : List ℚ) (w : World) : AffAt k c w (popZs j l) (popZs j l) := by
  induction l generalizing w with
  | nil => exact .pure w ()
  | cons f fs ih =>
    unfold popZs
    exact AffAt.bind (popZ1_aff j f w) fun _ w1 _ => ih w1

theorem lazyZ_aff (j : Nat) (w : World) : AffAt k c w (lazyZ j) (lazyZ j) := by
  unfold AffAt lazyZ
  show (if (w.hf j).subs.length = 0 then match (w.hf j).term.F with
    | some F => popZs j (zMs F) (w.aff k c)
    | none => (w.aff k c, Except.error PyErr.TypeError)
    else (w.aff k c, Except.ok ())) = _
  split
  · cases (w.hf j).term.F with
    | none => rfl
    | some F => exact popZs_aff j _ w
  · rfl

theorem hfItem_aff (j : Nat) (key : Str) (w : World) : AffAt k c w (hfItem j key) (hfItem j key) := by
  unfold hfItem
  refine AffAt.bind (lazyZ_aff j w) fun _ w1 _ => AffAt.get ?_
  show AffAt k c w1 _ (if w1.I = 0 ∧ isIn mJtxt key = true then PyM.raise PyErr.KeyError else PyM.lift ((w1.hf j).subs.getE key))
  split
  · exact .raise _ _
  · exact .const _ _

theorem lvItem_aff (i : Nat) (key : Str) (w : World) : AffAt k c w (lvItem i key) (lvItem i key) := by
  unfold lvItem
  refine AffAt.bind (lazyHF_aff i w) fun _ w1 _ => AffAt.get ?_
  by_cases h : w1.I = 0 ∧ isIn mJtxt key = true
  · rw [if_pos h, if_pos (show (w1.aff k c).I = 0 ∧ isIn mJtxt key = true from h)]
    exact AffAt.bind (.const w1 _) fun j w2 _ => AffAt.bind (hfItem_aff j _ w2) fun z w3 _ => .pure w3 _
  · rw [if_neg h, if_neg (show ¬((w1.aff k c).I = 0 ∧ isIn mJtxt key = true) from h)]
    exact AffAt.bind (.const w1 _) fun j w2 _ => .pure w2 _

theorem refItem_aff (r : Ref) (key : Str) (w : World) : AffAt k c w (refItem r key) (refItem r key) := by
  unfold refItem
  cases r with
  | fine i => exact lvItem_aff i key w
  | hyp j => exact AffAt.bind (hfItem_aff j key w) fun z w1 _ => .pure w1 _
  | zee z => exact .raise _ _

theorem levelsGet_aff (key : Str) (w : World) : AffAt k c w (levelsGet key) (levelsGet key) := by
  unfold levelsGet
  refine AffAt.get ?_
  show AffAt k c w _ (match w.lalias.get? key with
    | some r => Pure.pure r
    | none => _)
  cases w.lalias.get? key with
  | some r => exact .pure w r
  | none =>
    simp only
    by_cases h1 : isIn Term.mfEq key = true
    · rw [if_pos h1, if_pos h1]
      rcases rsplit spc 2 key with _ | ⟨a, _ | ⟨b, _ | ⟨d, _ | ⟨e, l⟩⟩⟩⟩
      case cons.cons.cons.nil =>
        exact AffAt.bind (.const w _) fun i w1 _ => AffAt.bind (lvItem_aff i _ w1) fun r w2 _ => refItem_aff r _ w2
      all_goals exact .raise _ _
    · rw [if_neg h1, if_neg h1]
      by_cases h2 : isIn mJeq key = true
      · rw [if_pos h2, if_pos h2]
        rcases rsplit spcMJ 1 key with _ | ⟨a, _ | ⟨b, _ | ⟨d, l⟩⟩⟩
        case cons.cons.nil =>
          exact AffAt.bind (.const w _) fun i w1 _ => AffAt.bind (lvItem_aff i _ w1) fun r w2 _ => refItem_aff r _ w2
        all_goals exact .raise _ _
      · rw [if_neg h2, if_neg h2]
        by_cases h3 : isIn Term.fEq key = true
        · rw [if_pos h3, if_pos h3]
          rcases rsplit spc 1 key with _ | ⟨a, _ | ⟨b, _ | ⟨d, l⟩⟩⟩
          case cons.cons.nil =>
            exact AffAt.bind (.const w _) fun i w1 _ => lvItem_aff i _ w1
          all_goals exact .raise _ _
        · rw [if_neg h3, if_neg h3]
          exact AffAt.bind (.const w _) fun i w1 _ => .pure w1 _

/-! ## Containers -/

theorem setAlias_aff (r : Ref) (al : Str) (w : World) : AffAt k c w (setAlias r al) (setAlias r al) := by
  unfold AffAt setAlias
  cases r with
  | fine i =>
    simp only
    rw [show (w.aff k c).setLv i { (w.aff k c).lv i with ali := some al } = (w.setLv i { w.lv i with ali := some al }).aff k c by
      rw [aff_setLv]; rfl]
    by_cases h : ((w.setLv i { w.lv i with ali := some al }).lv i).inAtom = true
    · rw [if_pos h, if_pos (show ((World.aff k c _).lv i).inAtom = true from h)]
      rfl
    · rw [if_neg h, if_neg (show ¬((World.aff k c _).lv i).inAtom = true from h)]
  | hyp j => rfl
  | zee z => rfl

theorem addLevel_aff (i : Nat) (p : Bool) (ali : Option Str) (w : World) : AffAt k c w (addLevel i p ali) (addLevel i p ali) := by
  unfold addLevel
  refine AffAt.bind ?_ fun _ w1 _ => AffAt.bind ?_ fun _ w2 _ => AffAt.bind ?_ fun _ w3 _ => ?_
  · unfold AffAt lvAddToAtom PyM.modify
    simp only [World.aff, upd_map]
    rfl
  · cases ali with
    | none => exact .pure w1 ()
    | some al => exact setAlias_aff (.fine i) al w1
  · unfold AffAt regAlias
    show (match (w2.lv i).ali with
      | some al => ({ w2.aff k c with lalias := w2.lalias.set al (.fine i) }, Except.ok ())
      | none => (w2.aff k c, Except.ok ())) = _
    cases (w2.lv i).ali with
    | none => rfl
    | some al => rfl
  · cases p
    · exact .pure w3 ()
    · exact populateHF_aff i w3

theorem levelsDel_aff (key : Str) (w : World) : AffAt k c w (levelsDel key) (levelsDel key) := by
  unfold AffAt levelsDel
  show (match w.g.removeNode key with
    | Except.ok g => ({ w.aff k c with g := g }, Except.ok ())
    | Except.error e => (w.aff k c, Except.error e)) = _
  rcases w.g.removeNode key with e | g <;> rfl

/-- The rank of a level is the same. -/
theorem aff_rank (hk : 0 < k) (w : World) (n : Int) : levelsGetInt n (w.aff k c) = levelsGetInt n w := by
  unfold levelsGetInt sortedLevels
  congr 1
  have : (fun a b => decide ((w.aff k c).eHz a ≤ (w.aff k c).eHz b)) = fun a b => decide (w.eHz a ≤ w.eHz b) := by
    funext a b
    rw [aff_eHz, aff_eHz, decide_eq_decide, aff_le hk]
  rw [this]
  rfl

/-! ## Transitions -/

theorem trAddToAtom_aff (t : Nat) (w : World) : AffAt k c w (trAddToAtom t) (trAddToAtom t) := by
  unfold AffAt trAddToAtom
  simp only
  by_cases h : (w.tr t).subKeys.length = 0
  · rw [if_pos h, if_pos (show ((World.aff k c _).tr t).subKeys.length = 0 from h)]
    rfl
  · rw [if_neg h, if_neg (show ¬((World.aff k c _).tr t).subKeys.length = 0 from h)]
    rfl

theorem newTransObj_aff (hk : 0 < k) (a b : Nat) (ali : Option Str) (w : World) : AffAt k c w (newTransObj a b ali) (newTransObj a b ali) := by
  unfold AffAt newTransObj
  simp only
  have hgt : ((w.aff k c).eHz b > (w.aff k c).eHz a) = (w.eHz b > w.eHz a) := by
    rw [aff_eHz, aff_eHz]; exact propext (aff_lt hk _ _)
  simp only [hgt]
  set w' : World := { w with ntr := w.ntr + 1, tr := upd w.tr w.ntr ⟨a, b, if w.eHz b > w.eHz a then a else b,
    if w.eHz b > w.eHz a then b else a, false, none, (false, false, false), none, ali, []⟩ } with hw'
  have e : ({ w.aff k c with ntr := (w.aff k c).ntr + 1, tr := upd (w.aff k c).tr (w.aff k c).ntr ⟨a, b, if w.eHz b > w.eHz a then a else b,
      if w.eHz b > w.eHz a then b else a, false, none, (false, false, false), none, ali, []⟩ } : World) = w'.aff k c := by
    rw [hw']
    simp only [World.aff, upd_map]
    rfl
  rw [e]
  by_cases h : (w.lv a).inAtom = true
  · rw [if_pos h, if_pos (show ((w.aff k c).lv a).inAtom = true from h)]
    show (match trAddToAtom w.ntr (w'.aff k c) with
      | (w'', Except.ok ()) => (w'', Except.ok w.ntr)
      | (w'', Except.error e) => (w'', Except.error e)) = _
    rw [trAddToAtom_aff w.ntr w']
    rcases trAddToAtom w.ntr w' with ⟨w2, e | u⟩ <;> rfl
  · rw [if_neg h, if_neg (show ¬((w.aff k c).lv a).inAtom = true from h)]
    rfl

/-- The end of the constructor: the alias is registered. -/
def attrsTail (t : Nat) : PyM Unit := fun w =>
  match (w.tr t).ali with
  | none => (w, Except.ok ())
  | some s => if (w.lv (w.tr t).e1).inAtom then ({ w with talias := w.talias.set s t }, Except.ok ())
              else (w, Except.error PyErr.AttributeError)

theorem newTransAttrs_eq (t : Nat) (f : Option ℚ) (A : AArg) (w : World) (hA : ∀ e, A ≠ .bad e) :
    newTransAttrs t f A w = match w.transAllowed (w.tr t).e1 (w.tr t).e2 with
      | Except.error e => (w, Except.error e)
      | Except.ok al => attrsTail t (w.setTr t { w.tr t with built := true, A := A.rate, allowed := al, setFreq := f }) := by
  cases A with
  | bad e => exact absurd rfl (hA e)
  | none => rfl
  | hz q => rfl

theorem attrsTail_aff (t : Nat) (w : World) : AffAt k c w (attrsTail t) (attrsTail t) := by
  unfold AffAt attrsTail
  show (match (w.tr t).ali with
    | none => (w.aff k c, Except.ok ())
    | some s => if (w.lv (w.tr t).e1).inAtom = true then ({ w.aff k c with talias := w.talias.set s t }, Except.ok ())
      else (w.aff k c, Except.error PyErr.AttributeError)) = _
  rcases (w.tr t).ali with _ | s
  · rfl
  · by_cases h : (w.lv (w.tr t).e1).inAtom = true
    · simp only [h, if_true]; rfl
    · simp only [h]; rfl

theorem newTransAttrs_aff (t : Nat) (f : Option ℚ) (A : AArg) (w : World) :
    AffAt k c w (newTransAttrs t f A) (newTransAttrs t (f.map (k * ·)) A) := by
  by_cases hA : ∀ e, A ≠ .bad e
  · unfold AffAt
    rw [newTransAttrs_eq _ _ _ _ hA, newTransAttrs_eq _ _ _ _ hA]
    have e : (w.aff k c).transAllowed ((w.aff k c).tr t).e1 ((w.aff k c).tr t).e2 = w.transAllowed (w.tr t).e1 (w.tr t).e2 := rfl
    rw [e]
    rcases w.transAllowed (w.tr t).e1 (w.tr t).e2 with e | al
    · rfl
    · simp only
      rw [show (w.aff k c).setTr t { (w.aff k c).tr t with built := true, A := A.rate, allowed := al, setFreq := f.map (k * ·) } =
        (w.setTr t { w.tr t with built := true, A := A.rate, allowed := al, setFreq := f }).aff k c by rw [aff_setTr]; rfl]
      exact attrsTail_aff t _
  · cases A with
    | bad e => rfl
    | none => exact absurd (fun e h => by cases h) hA
    | hz q => exact absurd (fun e h => by cases h) hA

theorem newTrans_aff (hk : 0 < k) (a b : Nat) (f : Option ℚ) (A : AArg) (ali : Option Str) (w : World) :
    AffAt k c w (World.newTrans a b f A ali) (World.newTrans a b (f.map (k * ·)) A ali) := by
  unfold World.newTrans
  exact AffAt.bind (newTransObj_aff hk a b ali w) fun t w1 _ => AffAt.bind (newTransAttrs_aff t f A w1) fun _ w2 _ => .pure w2 _

/-! ## Enforcement -/

theorem setEdgesL_aff (w : World) (l : List ((Str × Str) × Nat)) : setEdgesL (w.aff k c) l = setEdgesL w l := by
  induction l with
  | nil => rfl
  | cons p l ih =>
    obtain ⟨e, t⟩ := p
    unfold setEdgesL
    rw [ih]
    show (if (w.tr t).built then do
      let r ← setEdgesL w l
      Except.ok (if ((w.tr t).setFreq.map (k * ·)).isSome then e :: r else r)
    else Except.error PyErr.AttributeError) = _
    rw [Option.isSome_map]

theorem lowestLoop_aff (hk : 0 < k) (w : World) (l : List (Str × Option Nat)) (cur : Option Nat) (n : Option Str) :
    lowestLoop (w.aff k c) l cur n = lowestLoop w l cur n := by
  induction l generalizing cur n with
  | nil => rfl
  | cons p l ih =>
    obtain ⟨m, o⟩ := p
    cases cur with
    | none => unfold lowestLoop; exact ih _ _
    | some cu =>
      cases o with
      | none => rfl
      | some i =>
        unfold lowestLoop
        rw [ih, ih, aff_eHz, aff_eHz]
        simp only [aff_lt hk]

theorem enfEdge_aff (hk : 0 < k) (u v : Str) (w : World) : AffAt k c w (enfEdge u v) (enfEdge u v) := by
  unfold AffAt enfEdge
  show (match w.g.adj u v with
    | none => (w.aff k c, Except.error PyErr.KeyError)
    | some t => _) = _
  rcases w.g.adj u v with _ | t
  · rfl
  simp only
  show (match (w.tr t).setFreq.map (k * ·) with
    | none => (w.aff k c, Except.error PyErr.AttributeError)
    | some f => _) = _
  rcases (w.tr t).setFreq with _ | f
  · rfl
  simp only [Option.map]
  refine Prod.ext ?_ rfl
  simp only
  rw [aff_setFixed, aff_setFixed]
  show World.setFixed (World.setFixed _ (w.tr t).upper true) (w.tr t).lower true = _
  congr 2
  show (if (w.lv (w.tr t).lower).fixed = true ∧ (w.lv (w.tr t).upper).fixed = true ∧
      k * f ≠ |k * w.eHz (w.tr t).lower + c - (k * w.eHz (w.tr t).upper + c)| then { w.aff k c with warned := w.warned + 1 }
    else if (w.lv (w.tr t).upper).fixed = true then (w.aff k c).setE (w.tr t).lower (k * w.eHz (w.tr t).upper + c - k * f)
    else (w.aff k c).setE (w.tr t).upper (k * w.eHz (w.tr t).lower + c + k * f)) = _
  have hne : k * f ≠ |k * w.eHz (w.tr t).lower + c - (k * w.eHz (w.tr t).upper + c)| ↔ f ≠ |w.eHz (w.tr t).lower - w.eHz (w.tr t).upper| := by
    rw [show k * w.eHz (w.tr t).lower + c - (k * w.eHz (w.tr t).upper + c) = k * (w.eHz (w.tr t).lower - w.eHz (w.tr t).upper) by ring,
      abs_mul, abs_of_pos hk, ne_eq, ne_eq, mul_right_inj' hk.ne']
  simp only [hne]
  split_ifs
  · rfl
  · rw [aff_setE]; congr 1; ring
  · rw [aff_setE]; congr 1; ring

theorem enfEdges_aff (hk : 0 < k) (l : List (Str × Str)) (w : World) : AffAt k c w (enfEdges l) (enfEdges l) := by
  induction l generalizing w with
  | nil => exact .pure w ()
  | cons p l ih =>
    obtain ⟨u, v⟩ := p
    unfold enfEdges
    exact AffAt.bind (enfEdge_aff hk u v w) fun _ w1 _ => ih w1

theorem enfComp_aff (hk : 0 < k) (σ : Ord') (es : List (Str × Str)) (d : List Str) (w : World) :
    AffAt k c w (enfComp σ es d) (enfComp σ es d) := by
  unfold AffAt enfComp
  rw [lowestLoop_aff hk]
  show (match lowestLoop w (withLevels w.g (σ (.low d) d)) none none with
    | Except.error e => (w.aff k c, Except.error e)
    | Except.ok none => (w.aff k c, Except.ok ())
    | Except.ok (some s) => enfEdges (Graph.dfsEdges d (fun n => σ (.nbrs d n) (subNbrs w.g es n)) s) (w.aff k c)) = _
  rcases lowestLoop w (withLevels w.g (σ (.low d) d)) none none with e | _ | s
  · rfl
  · rfl
  · exact enfEdges_aff hk _ w

theorem enfComps_aff (hk : 0 < k) (σ : Ord') (es : List (Str × Str)) (trig : Option (Str × Str)) (ds : List (List Str)) (w : World) :
    AffAt k c w (enfComps σ es trig ds) (enfComps σ es trig ds) := by
  induction ds generalizing w with
  | nil => exact .pure w ()
  | cons d ds ih =>
    unfold AffAt enfComps
    show (if triggered w.g es d trig then _ else _) = _
    by_cases h : triggered w.g es d trig = true
    · rw [if_pos h, if_pos h]
      exact AffAt.bind (enfComp_aff hk σ es d w) fun _ w1 _ => ih w1
    · rw [if_neg h, if_neg h]
      exact ih w

theorem enforce_aff (hk : 0 < k) (σ : Ord') (trig : Option (Str × Str)) (w : World) : AffAt k c w (enforce σ trig) (enforce σ trig) := by
  unfold AffAt enforce
  have : (w.aff k c).setEdges = w.setEdges := setEdgesL_aff w _
  rw [this]
  rcases w.setEdges with e | es
  · rfl
  · exact enfComps_aff hk σ es trig _ w

theorem setFrequency_aff (hk : 0 < k) (σ : Ord') (t : Nat) (f : ℚ) (w : World) :
    AffAt k c w (setFrequency σ t f) (setFrequency σ t (k * f)) := by
  unfold AffAt setFrequency
  show (if (w.tr t).built then _ else _) = _
  by_cases hb : (w.tr t).built = true
  · rw [if_pos hb, if_pos hb]
    simp only
    have htr : truthy ((w.aff k c).tr t).setFreq = truthy (w.tr t).setFreq := by
      show truthy ((w.tr t).setFreq.map (k * ·)) = _
      rcases (w.tr t).setFreq with _ | q
      · rfl
      · simp [truthy, hk.ne']
    set w1 := if truthy (w.tr t).setFreq = true ∧ (w.lv (w.tr t).upper).fixed = true ∧ (w.lv (w.tr t).lower).fixed = true
      then w.setFixed (w.tr t).upper false else w with hw1
    have e1 : (if truthy ((w.aff k c).tr t).setFreq = true ∧ ((w.aff k c).lv ((w.aff k c).tr t).upper).fixed = true ∧
        ((w.aff k c).lv ((w.aff k c).tr t).lower).fixed = true then (w.aff k c).setFixed ((w.aff k c).tr t).upper false else w.aff k c) =
        w1.aff k c := by
      rw [htr, hw1]
      show (if truthy (w.tr t).setFreq = true ∧ (w.lv (w.tr t).upper).fixed = true ∧ (w.lv (w.tr t).lower).fixed = true
        then (w.aff k c).setFixed (w.tr t).upper false else w.aff k c) = _
      split_ifs
      · rw [aff_setFixed]
      · rfl
    rw [e1]
    have e2 : (w1.aff k c).setTr t { (w1.aff k c).tr t with setFreq := some (k * f) } =
        (w1.setTr t { w1.tr t with setFreq := some f }).aff k c := by
      rw [aff_setTr]; rfl
    rw [e2]
    set w2 := w1.setTr t { w1.tr t with setFreq := some f }
    by_cases h : (w2.lv (w2.tr t).e1).inAtom = true
    · rw [if_pos h, if_pos (show ((w2.aff k c).lv ((w2.aff k c).tr t).e1).inAtom = true from h)]
      exact enforce_aff hk σ _ w2
    · rw [if_neg h, if_neg (show ¬((w2.aff k c).lv ((w2.aff k c).tr t).e1).inAtom = true from h)]
  · rw [if_neg hb, if_neg hb]

theorem addTransition_aff (hk : 0 < k) (σ : Ord') (t : Nat) (w : World) : AffAt k c w (addTransition σ t) (addTransition σ t) := by
  unfold addTransition
  refine AffAt.bind (trAddToAtom_aff t w) fun _ w1 _ => AffAt.bind ?_ fun _ w2 _ => ?_
  · unfold AffAt regTAlias
    show (match (w1.tr t).ali with
      | some s => ({ w1.aff k c with talias := w1.talias.set s t }, Except.ok ())
      | none => (w1.aff k c, Except.ok ())) = _
    rcases (w1.tr t).ali with _ | s <;> rfl
  · unfold AffAt enforceIfSet
    show (if (w2.tr t).built then match (w2.tr t).setFreq.map (k * ·) with
      | some _ => enforce σ none (w2.aff k c)
      | none => (w2.aff k c, Except.ok ())
      else (w2.aff k c, Except.error PyErr.AttributeError)) = _
    split
    · rcases (w2.tr t).setFreq with _ | q
      · rfl
      · exact enforce_aff hk σ none w2
    · rfl

theorem AffAt.void {α : Type} {w : World} {m m' : PyM α} (h : AffAt k c w m m') : AffAt k c w (Op.void m) (Op.void m') := by
  unfold AffAt Op.void
  rw [h]
  rcases m w with ⟨w1, e | a⟩ <;> rfl

/-- One call. -/
theorem op_aff (hk : 0 < k) (op : Op) (w : World) : AffAt k c w op.run (op.aff k c).run := by
  cases op with
  | newLevel t E l A B C ali =>
    show AffAt k c w (Op.void (World.newLevel t E l A B C ali)) (Op.void (World.newLevel t (k * E + c) l (k * A) (k * B) (k * C) ali))
    refine AffAt.void ?_
    unfold AffAt World.newLevel
    simp only [World.aff, upd_map]
    rfl
  | addLevel i p ali => exact addLevel_aff i p ali w
  | setItem key i => exact addLevel_aff i false (some key) w
  | delItem key => exact levelsDel_aff key w
  | getLevel key => exact (levelsGet_aff key w).void
  | getSub r key => exact (refItem_aff r key w).void
  | setAlias r al => exact setAlias_aff r al w
  | setEnergy i v => exact Prod.ext (aff_setE w i v).symm rfl
  | setHEnergy j v => exact setHLevel_aff j v w
  | setZEnergy z v => exact setZLevel_aff hk.ne' z v w
  | setConsts i l A B C => exact Prod.ext (aff_setLv w i { w.lv i with lande := l, hfA := A, hfB := B, hfC := C }).symm rfl
  | setQuad z q => exact Prod.ext (aff_setZl w z { w.zl z with quad := q }).symm rfl
  | setB b => rfl
  | newTrans a b f A ali => exact (newTrans_aff hk a b f A ali w).void
  | addTransition σ t => exact addTransition_aff hk σ t w
  | setFrequency σ t f => exact setFrequency_aff hk σ t f w
  | enforce σ => exact enforce_aff hk σ none w
  | fillSub t keys => exact Prod.ext (aff_setTr w t { w.tr t with subKeys := keys }).symm rfl

end

/-- What every call of a history gives: its result or exception. -/
def outcomes : List Op → World → List (Py Unit)
  | [], _ => []
  | op :: ops, w => (op.run w).2 :: outcomes ops (op.run w).1

/-- C145: counting all energies in another unit and from another zero (levels, constants, field, frequencies set; every later call likewise)
changes nothing but the numbers: every call succeeds or raises as before, and the atom afterwards is the one obtained before, counted in the
other unit and from the other zero. -/
theorem C145_history {k : ℚ} (c : ℚ) (hk : 0 < k) (ops : List Op) (w : World) :
    runAll (ops.map (Op.aff k c)) (w.aff k c) = (runAll ops w).aff k c ∧
    outcomes (ops.map (Op.aff k c)) (w.aff k c) = outcomes ops w := by
  induction ops generalizing w with
  | nil => exact ⟨rfl, rfl⟩
  | cons op ops ih =>
    have h : (op.aff k c).run (w.aff k c) = ((op.run w).1.aff k c, (op.run w).2) := op_aff hk op w
    constructor
    · show runAll (ops.map (Op.aff k c)) ((op.aff k c).run (w.aff k c)).1 = _
      rw [h]
      exact (ih _).1
    · show ((op.aff k c).run (w.aff k c)).2 :: outcomes (ops.map (Op.aff k c)) ((op.aff k c).run (w.aff k c)).1 = _
      rw [h]
      exact congrArg _ (ih _).2

/-- C145: of the atom in the other unit, levels and sublevels have the other numbers, frequencies of transitions are multiplied by the unit
only, every lookup by name or rank gives the same object, the same names are listed, and as many warnings were issued. -/
theorem C145_observed {k : ℚ} (c : ℚ) (hk : 0 < k) (w : World) :
    (∀ r e, w.refHz r = Except.ok e → (w.aff k c).refHz r = Except.ok (k * e + c)) ∧ (∀ r e, w.refHz r = Except.error e → (w.aff k c).refHz r = Except.error e) ∧
    (∀ t, (w.aff k c).freqHz t = k * w.freqHz t) ∧ (∀ n, levelsGetInt n (w.aff k c) = levelsGetInt n w) ∧
    (∀ key, (levelsGet key (w.aff k c)).2 = (levelsGet key w).2) ∧ (w.aff k c).levelNames = w.levelNames ∧
    (w.aff k c).g = w.g ∧ (w.aff k c).warned = w.warned ∧ (∀ t, ((w.aff k c).tr t).A = (w.tr t).A) ∧
    ∀ a b, (transGet a b (w.aff k c)).2 = (transGet a b w).2 := by
  refine ⟨fun r e h => ?_, fun r e h => ?_, aff_freqHz hk w, aff_rank hk w, fun key => ?_, rfl, rfl, rfl, fun _ => rfl, fun a b => ?_⟩
  · rw [aff_refHz hk.ne', h]; rfl
  · rw [aff_refHz hk.ne', h]; rfl
  · rw [show levelsGet key (w.aff k c) = _ from levelsGet_aff key w]
  · suffices h : AffAt k c w (transGet a b) (transGet a b) by rw [h]
    unfold transGet
    refine AffAt.bind (levelsGet_aff a w) fun ra w1 _ => AffAt.bind (levelsGet_aff b w1) fun rb w2 _ => AffAt.get ?_
    rw [aff_refHz hk.ne', aff_refHz hk.ne']
    rcases w2.refHz ra with e | ea
    · rfl
    rcases w2.refHz rb with e | eb
    · rfl
    show AffAt k c w2 (if plainKey a then if ea > eb then PyM.lift (w2.g.edges.getE (b, a)) else PyM.lift (w2.g.edges.getE (a, b))
      else PyM.raise .NotImplementedError)
      (if plainKey a then if k * ea + c > k * eb + c then PyM.lift (w2.g.edges.getE (b, a)) else PyM.lift (w2.g.edges.getE (a, b))
      else PyM.raise .NotImplementedError)
    simp only [gt_iff_lt, aff_lt hk]
    split_ifs
    · exact .const _ _
    · exact .const _ _
    · exact .raise _ _

/-- C145 for the unit alone: the whole history of an atom, from its construction. -/
theorem C145_unit {k : ℚ} (hk : 0 < k) (I B : ℚ) (ops : List Op) (t : Nat) :
    (runAll (ops.map (Op.aff k 0)) (emptyAtom I (k * B))).freqHz t = k * (runAll ops (emptyAtom I B)).freqHz t := by
  have e : (emptyAtom I B).aff k 0 = emptyAtom I (k * B) := by
    simp [emptyAtom, World.aff, ELevel.aff, ZLvl.aff, Trans.aff]
  rw [← e, (C145_history 0 hk ops _).1, aff_freqHz hk]

/-- The chain of two set frequencies, in kHz and shifted. -/
example : (runAll ((chainOps 1 1 ++ [Op.enforce idOrd]).map (Op.aff (1/1000) 7)) ((emptyAtom 0 0).aff (1/1000) 7)).freqHz 0 = 1/1000 := by
  rw [(C145_history 7 (by norm_num) _ _).1, aff_freqHz (by norm_num)]
  decide +kernel

end AtomTk
