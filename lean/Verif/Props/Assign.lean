import Verif.Model.Assign
import Verif.Props.Energies

/-!
# C174: sublevels assigned by hand
-/

namespace AtomTk
open Util World

/-- The constants of hyperfine structure of a level. -/
def hfConsts (w : World) (i : Nat) : ℚ × ℚ × ℚ := ((w.lv i).hfA, (w.lv i).hfB, (w.lv i).hfC)

/-- The full claim C174: a hyperfine level assigned to a level sits where the constants of the level put it. -/
def C174_full : Prop := ∀ (w : World) (i j : Nat) (key : Str) (J F d : ℚ), Reachable w → (w.lv i).inAtom = true → j < w.nhf →
  (w.hf j).term.J = some J → (w.hf j).term.F = some F → hfShift (w.lv i).hfA (w.lv i).hfB (w.lv i).hfC w.I J F = .ok d →
  ((ManW.of w).assign i key j).hHz j = .ok (w.eHz i + d)

namespace ManW

theorem assign_term (s : ManW) (i : Nat) (key : Str) (j j' : Nat) : (((s.assign i key j).w).hf j').term = (s.w.hf j').term ∧
    (((s.assign i key j).w).hf j').subs = (s.w.hf j').subs ∧ (((s.assign i key j).w).hf j').gF = (s.w.hf j').gF := by
  simp only [assign, World.setHf, World.setLv, upd]
  split
  · rename_i h; subst h; exact ⟨rfl, rfl, rfl⟩
  · exact ⟨rfl, rfl, rfl⟩

theorem assign_lv (s : ManW) (i : Nat) (key : Str) (j i' : Nat) : (s.assign i key j).w.lv i' =
    if i' = i then { s.w.lv i with subs := (s.w.lv i).subs.set key j } else s.w.lv i' := by
  simp only [assign, World.setHf, World.setLv, upd]

theorem assign_eHz (s : ManW) (i : Nat) (key : Str) (j i' : Nat) : (s.assign i key j).w.eHz i' = s.w.eHz i' := by
  unfold World.eHz
  rw [assign_lv]; split
  · rename_i h; subst h; rfl
  · rfl

theorem assign_consts (s : ManW) (i : Nat) (key : Str) (j i' : Nat) : ((s.assign i key j).w.lv i').hfA = (s.w.lv i').hfA ∧
    ((s.assign i key j).w.lv i').hfB = (s.w.lv i').hfB ∧ ((s.assign i key j).w.lv i').hfC = (s.w.lv i').hfC ∧
    ((s.assign i key j).w.lv i').lande = (s.w.lv i').lande := by
  rw [assign_lv]; split
  · rename_i h; subst h; exact ⟨rfl, rfl, rfl, rfl⟩
  · exact ⟨rfl, rfl, rfl, rfl⟩

theorem assign_parent (s : ManW) (i : Nat) (key : Str) (j : Nat) : ((s.assign i key j).w.hf j).parent = i := by
  simp [assign, World.setHf, World.setLv, upd]

theorem assign_parent_ne (s : ManW) (i : Nat) (key : Str) {j j' : Nat} (h : j' ≠ j) : ((s.assign i key j).w.hf j').parent = (s.w.hf j').parent := by
  simp [assign, World.setHf, World.setLv, upd, h]

theorem assign_man (s : ManW) (i : Nat) (key : Str) (j j' : Nat) : (s.assign i key j).man j' = s.man j' := by
  by_cases h : j' = j
  · subst h; simp [man, assign, upd]
  · unfold man; rw [assign_parent_ne s i key h]; simp [assign, upd, h]

theorem assign_hShift (s : ManW) (i : Nat) (key : Str) (j j' : Nat) : (s.assign i key j).hShift j' = s.hShift j' := by
  unfold hShift
  rw [(assign_term s i key j j').1, assign_man, (assign_consts s i key j _).1, (assign_consts s i key j _).2.1, (assign_consts s i key j _).2.2.1]
  rfl

theorem assign_zShift (s : ManW) (i : Nat) (key : Str) (j k : Nat) : (s.assign i key j).w.zShiftHz k = s.w.zShiftHz k := rfl

end ManW

/-- Before anything has been assigned the energies, and what is set and made, are those of the atom. -/
theorem C174_agrees (w : World) (j k : Nat) (v : ℚ) : (ManW.of w).hHz j = w.hHz j ∧ (ManW.of w).zHz k = w.zHz k ∧
    ((ManW.of w).setHLevel j v).2 = (World.setHLevel j v w).2 ∧ ((ManW.of w).setHLevel j v).1.w = (World.setHLevel j v w).1 := by
  have e : ∀ j, (ManW.of w).hHz j = w.hHz j := fun _ => rfl
  refine ⟨rfl, rfl, ?_, ?_⟩
  · unfold ManW.setHLevel World.setHLevel; rw [e]; cases w.hHz j <;> rfl
  · unfold ManW.setHLevel World.setHLevel; rw [e]; cases w.hHz j <;> rfl

/-- The sublevel is moved by the difference between the energies of the two levels: its shift stays that of the manifold it was made in. -/
theorem C174_moved (s : ManW) (i : Nat) (key : Str) {j : Nat} {e : ℚ} (h : s.hHz j = .ok e) :
    (s.assign i key j).hHz j = .ok (e + (s.w.eHz i - s.w.eHz (s.w.hf j).parent)) := by
  unfold ManW.hHz at h ⊢
  rw [ManW.assign_hShift, ManW.assign_parent, ManW.assign_eHz]
  cases hd : s.hShift j with
  | error x => rw [hd] at h; cases h
  | ok d =>
    rw [hd] at h
    injection h with h
    show Except.ok (s.w.eHz i + d) = _
    rw [← h]; congr 1; ring

/-- Its Zeeman levels move with it. -/
theorem C174_zeeman (s : ManW) (i : Nat) (key : Str) {j k : Nat} {e : ℚ} (hk : (s.w.zl k).parent = j) (h : s.zHz k = .ok e) :
    (s.assign i key j).zHz k = .ok (e + (s.w.eHz i - s.w.eHz (s.w.hf j).parent)) := by
  unfold ManW.zHz at h ⊢
  rw [hk] at h
  have hk' : ((s.assign i key j).w.zl k).parent = j := hk
  rw [hk', ManW.assign_zShift]
  cases hp : s.hHz j with
  | error x => rw [hp] at h; cases h
  | ok p =>
    rw [hp] at h
    rw [C174_moved s i key hp]
    cases hd : s.w.zShiftHz k with
    | error x => rw [hd] at h; cases h
    | ok d =>
      rw [hd] at h
      injection h with h
      show Except.ok (p + _ + d) = _
      rw [← h]; congr 1; ring

/-- No other level moves. -/
theorem C174_rest (s : ManW) (i : Nat) (key : Str) (j : Nat) : (∀ i', (s.assign i key j).w.eHz i' = s.w.eHz i') ∧
    (∀ j' ≠ j, (s.assign i key j).hHz j' = s.hHz j') ∧ (∀ k, (s.w.zl k).parent ≠ j → (s.assign i key j).zHz k = s.zHz k) := by
  have hh : ∀ j' ≠ j, (s.assign i key j).hHz j' = s.hHz j' := by
    intro j' h
    unfold ManW.hHz
    rw [ManW.assign_hShift, ManW.assign_parent_ne s i key h, ManW.assign_eHz]
  refine ⟨ManW.assign_eHz s i key j, hh, fun k hk => ?_⟩
  unfold ManW.zHz
  have e : ((s.assign i key j).w.zl k).parent = (s.w.zl k).parent := rfl
  rw [e, hh _ hk, ManW.assign_zShift]

/-- C174 where it holds: with the same constants in the level as in the manifold, the sublevel sits where the level puts it. -/
theorem C174_sits_partial (s : ManW) (i j : Nat) (key : Str) {J F d : ℚ} (hJ : (s.w.hf j).term.J = some J) (hF : (s.w.hf j).term.F = some F)
    (hc : hfConsts s.w (s.man j) = hfConsts s.w i) (hd : hfShift (s.w.lv i).hfA (s.w.lv i).hfB (s.w.lv i).hfC s.w.I J F = .ok d) :
    (s.assign i key j).hHz j = .ok (s.w.eHz i + d) := by
  simp only [hfConsts, Prod.mk.injEq] at hc
  have e : s.hShift j = .ok d := by
    unfold ManW.hShift; rw [hJ, hF]; simp only [hc.1, hc.2.1, hc.2.2]; exact hd
  unfold ManW.hHz
  rw [ManW.assign_hShift, e, ManW.assign_parent, ManW.assign_eHz]
  rfl

/-- From then on the sublevel follows the energy of the level, and the constants of its manifold: those of the level do not matter. -/
theorem C174_follows (s : ManW) {i j : Nat} (key : Str) (L : ELevel) :
    let s' := s.assign i key j
    let c : ManW := { s' with w := s'.w.setLv i L }
    (∀ e, s.man j ≠ i → s'.hHz j = .ok e → c.hHz j = .ok (e + (L.levelHz - s.w.eHz i))) ∧
    (∀ i', i' ≠ i → i' ≠ s.man j → ({ s' with w := s'.w.setLv i' L } : ManW).hHz j = s'.hHz j) := by
  intro s' c
  have hm : s'.man j = s.man j := ManW.assign_man s i key j j
  have hp : (s'.w.hf j).parent = i := ManW.assign_parent s i key j
  refine ⟨fun e hne h => ?_, fun i' h1 h2 => ?_⟩
  · have e1 : c.hShift j = s'.hShift j := by
      have em : c.man j = s'.man j := rfl
      unfold ManW.hShift
      rw [em, hm]
      have : c.w.lv (s.man j) = s'.w.lv (s.man j) := by
        show (s'.w.setLv i L).lv _ = _
        simp [World.setLv, upd, hne]
      rw [this]; rfl
    have e2 : c.w.eHz i = L.levelHz := by
      show ((s'.w.setLv i L).lv i).levelHz = _
      simp [World.setLv, upd]
    unfold ManW.hHz at h ⊢
    have e3 : (c.w.hf j).parent = i := hp
    rw [hp] at h
    rw [e1, e3, e2]
    cases hd : s'.hShift j with
    | error x => rw [hd] at h; cases h
    | ok d =>
      rw [hd] at h
      injection h with h
      have e4 : s'.w.eHz i = s.w.eHz i := ManW.assign_eHz s i key j i
      show Except.ok (L.levelHz + d) = _
      rw [← h, e4]; congr 1; ring
  · have em : ∀ L', ({ s' with w := s'.w.setLv i' L' } : ManW).man j = s'.man j := fun _ => rfl
    have e1 : (s'.w.setLv i' L).lv (s.man j) = s'.w.lv (s.man j) := by simp [World.setLv, upd, Ne.symm h2]
    have e2 : (s'.w.setLv i' L).eHz i = s'.w.eHz i := by unfold World.eHz; simp [World.setLv, upd, Ne.symm h1]
    have e3 : ({ s' with w := s'.w.setLv i' L } : ManW).hShift j = s'.hShift j := by
      unfold ManW.hShift
      rw [em, hm]
      simp only [e1]
      rfl
    unfold ManW.hHz
    rw [e3]
    have e4 : (({ s' with w := s'.w.setLv i' L } : ManW).w.hf j).parent = i := hp
    rw [e4, hp]
    simp only [e2]

/-- Setting its energy takes effect, and moves the level it has been assigned to and no other. -/
theorem C174_set (s : ManW) (i : Nat) (key : Str) {j : Nat} {e : ℚ} (h : (s.assign i key j).hHz j = .ok e) (v : ℚ) :
    let r := (s.assign i key j).setHLevel j v
    r.2 = .ok () ∧ r.1.hHz j = .ok v ∧ r.1.w.eHz i = s.w.eHz i + (v - e) ∧ ∀ i' ≠ i, r.1.w.eHz i' = s.w.eHz i' := by
  intro r
  set s' := s.assign i key j with hs'
  have hp : (s'.w.hf j).parent = i := ManW.assign_parent s i key j
  have hE : ∀ i', s'.w.eHz i' = s.w.eHz i' := ManW.assign_eHz s i key j
  have hr : r = ({ s' with w := s'.w.setE i (s'.w.eHz i + (v - e)) }, .ok ()) := by
    show s'.setHLevel j v = _
    simp only [ManW.setHLevel, h, hp]
  rw [hr]
  have e1 : (s'.w.setE i (s'.w.eHz i + (v - e))).eHz i = s.w.eHz i + (v - e) := by
    simp [World.eHz, World.setE, World.setLv, upd]; exact hE i
  refine ⟨rfl, ?_, e1, fun i' hi => ?_⟩
  · have e2 : ({ s' with w := s'.w.setE i (s'.w.eHz i + (v - e)) } : ManW).hShift j = s'.hShift j := by
      have em : ({ s' with w := s'.w.setE i (s'.w.eHz i + (v - e)) } : ManW).man j = s'.man j := rfl
      unfold ManW.hShift
      rw [em]
      have : ∀ m, ((s'.w.setE i (s'.w.eHz i + (v - e))).lv m).hfA = (s'.w.lv m).hfA ∧ ((s'.w.setE i (s'.w.eHz i + (v - e))).lv m).hfB = (s'.w.lv m).hfB ∧
          ((s'.w.setE i (s'.w.eHz i + (v - e))).lv m).hfC = (s'.w.lv m).hfC := by
        intro m
        simp only [World.setE, World.setLv, upd]
        split
        · rename_i h; subst h; exact ⟨rfl, rfl, rfl⟩
        · exact ⟨rfl, rfl, rfl⟩
      simp only [(this _).1, (this _).2.1, (this _).2.2]
      rfl
    unfold ManW.hHz at h ⊢
    rw [e2]
    have e3 : (({ s' with w := s'.w.setE i (s'.w.eHz i + (v - e)) } : ManW).w.hf j).parent = i := hp
    rw [e3]
    rw [hp] at h
    cases hd : s'.hShift j with
    | error x => rw [hd] at h; cases h
    | ok d =>
      rw [hd] at h
      injection h with h
      show Except.ok ((s'.w.setE i (s'.w.eHz i + (v - e))).eHz i + d) = _
      rw [e1, ← hE, ← h]; congr 1; ring
  · show (s'.w.setE i _).eHz i' = _
    rw [← hE]
    simp [World.eHz, World.setE, World.setLv, upd, hi]

/-- Where it is listed: under its key in the level it has been assigned to, whose other keys stay if there are any, and still in every other level that lists
it. -/
theorem C174_listed (s : ManW) (i : Nat) (key : Str) (j : Nat) :
    ((s.assign i key j).item i key).2 = .ok j ∧
    ((s.w.lv i).subs ≠ [] → ∀ k ≠ key, ((s.assign i key j).item i k).2 = (s.item i k).2) ∧
    (∀ i' ≠ i, (s.w.lv i').subs ≠ [] → ∀ k, ((s.assign i key j).item i' k).2 = (s.item i' k).2) := by
  have look : ∀ (s : ManW) i k, (s.w.lv i).subs ≠ [] → (s.item i k).2 = (s.w.lv i).subs.getE k := by
    intro s i k h
    have : lazyHF i s.w = (s.w, .ok ()) := by
      unfold lazyHF; rw [if_neg]; intro h'; exact h (List.length_eq_zero_iff.1 h')
    simp only [ManW.item, this]
  have e : ((s.assign i key j).w.lv i).subs = (s.w.lv i).subs.set key j := by rw [ManW.assign_lv]; simp
  have ne : ((s.assign i key j).w.lv i).subs ≠ [] := by
    rw [e]
    cases (s.w.lv i).subs with
    | nil => simp [Dict.set]
    | cons p t => obtain ⟨k', v'⟩ := p; unfold Dict.set; split <;> simp
  refine ⟨?_, fun h k hk => ?_, fun i' hi h k => ?_⟩
  · rw [look _ _ _ ne, e]; exact Dict.getE_ok.2 (by rw [Dict.get?_set]; simp)
  · rw [look _ _ _ ne, look _ _ _ h, e]
    unfold Dict.getE; rw [Dict.get?_set, if_neg (Ne.symm hk)]
  · have e' : (s.assign i key j).w.lv i' = s.w.lv i' := by rw [ManW.assign_lv, if_neg hi]
    rw [look _ _ _ (by rw [e']; exact h), look _ _ _ h, e']

/-- A level whose sublevels have not been computed has no others any more: the assigned one counts as all of them. -/
theorem C174_hides (s : ManW) (i : Nat) (key : Str) (j : Nat) (h : (s.w.lv i).subs = []) :
    ((s.assign i key j).keys i).2 = .ok [key] ∧ ∀ k ≠ key, ((s.assign i key j).item i k).2 = .error .KeyError := by
  have e : ((s.assign i key j).w.lv i).subs = [(key, j)] := by rw [ManW.assign_lv]; simp [h, Dict.set]
  have l : lazyHF i (s.assign i key j).w = ((s.assign i key j).w, .ok ()) := by
    unfold lazyHF; rw [if_neg]; rw [e]; simp
  refine ⟨?_, fun k hk => ?_⟩
  · show (lvKeys i (s.assign i key j).w).2 = _
    unfold lvKeys
    rw [PyM.bind_ok l]
    show Except.ok (((s.assign i key j).w.lv i).subs.keys) = _
    rw [e]; rfl
  · simp only [ManW.item, l]
    rw [e]
    exact Dict.getE_err (by simp [Dict.get?, Ne.symm hk])

/-- Deleting it from the former parent: there the key is gone, in the level it has been assigned to it stays, and it does not move. -/
theorem C174_deleted (s : ManW) {i p j j' : Nat} (key key' : Str) (hpi : p ≠ i) (h : (s.w.lv p).subs.get? key' = some j') :
    let r := (s.assign i key j).del p key'
    r.2 = .ok () ∧ (r.1.w.lv p).subs.get? key' = none ∧ (∀ k ≠ key', (r.1.w.lv p).subs.get? k = (s.w.lv p).subs.get? k) ∧
      (r.1.w.lv i).subs.get? key = some j ∧ r.1.hHz j = (s.assign i key j).hHz j := by
  intro r
  set s' := s.assign i key j with hs'
  have e1 : s'.w.lv p = s.w.lv p := by rw [hs', ManW.assign_lv, if_neg hpi]
  have e2 : (s'.w.lv i).subs = (s.w.lv i).subs.set key j := by rw [hs', ManW.assign_lv]; simp
  have hr : r = ({ s' with w := s'.w.setLv p { s'.w.lv p with subs := (s'.w.lv p).subs.del key' } }, .ok ()) := by
    show s'.del p key' = _
    have : (s'.w.lv p).subs.has key' = true := by rw [e1]; simp [Dict.has, h]
    simp only [ManW.del, lvDel, this, if_true]
  have hp : (s'.w.setLv p { s'.w.lv p with subs := (s'.w.lv p).subs.del key' }).lv p = { s'.w.lv p with subs := (s'.w.lv p).subs.del key' } := by
    simp [World.setLv, upd]
  rw [hr]
  refine ⟨rfl, ?_, fun k hk => ?_, ?_, ?_⟩
  · simp only [hp]; rw [Dict.get?_del]; simp
  · simp only [hp]; rw [Dict.get?_del, if_neg hk, e1]
  · have : (s'.w.setLv p { s'.w.lv p with subs := (s'.w.lv p).subs.del key' }).lv i = s'.w.lv i := by simp [World.setLv, upd, Ne.symm hpi]
    simp only [this]; rw [e2, Dict.get?_set]; simp
  · have hl : ∀ m, ((s'.w.setLv p { s'.w.lv p with subs := (s'.w.lv p).subs.del key' }).lv m).hfA = (s'.w.lv m).hfA ∧
        ((s'.w.setLv p { s'.w.lv p with subs := (s'.w.lv p).subs.del key' }).lv m).hfB = (s'.w.lv m).hfB ∧
        ((s'.w.setLv p { s'.w.lv p with subs := (s'.w.lv p).subs.del key' }).lv m).hfC = (s'.w.lv m).hfC ∧
        ((s'.w.setLv p { s'.w.lv p with subs := (s'.w.lv p).subs.del key' }).lv m).levelHz = (s'.w.lv m).levelHz := by
      intro m
      simp only [World.setLv, upd]
      split
      · rename_i h; subst h; exact ⟨rfl, rfl, rfl, rfl⟩
      · exact ⟨rfl, rfl, rfl, rfl⟩
    have em : ∀ x : World, x.hf = s'.w.hf → ({ s' with w := x } : ManW).man j = s'.man j := by
      intro x hx; unfold ManW.man; simp only [hx]
    unfold ManW.hHz ManW.hShift World.eHz
    rw [em _ rfl]
    simp only [(hl _).1, (hl _).2.1, (hl _).2.2.1, (hl _).2.2.2]
    rfl

/-- A sublevel assigned to the key and the level it is listed under changes nothing. -/
theorem C174_same (s : ManW) {i : Nat} {key : Str} {j : Nat} (hp : (s.w.hf j).parent = i) (h : (s.w.lv i).subs.get? key = some j) :
    (s.assign i key j).w = s.w ∧ (s.assign i key j).man = s.man := by
  refine ⟨?_, funext fun j' => ManW.assign_man s i key j j'⟩
  have d : ∀ (d : Dict Str Nat), d.get? key = some j → d.set key j = d := by
    intro d
    induction d with
    | nil => intro h; simp [Dict.get?] at h
    | cons p t ih =>
      obtain ⟨k', v'⟩ := p
      intro h
      unfold Dict.get? at h
      unfold Dict.set
      split at h
      · rename_i hk; rw [if_pos hk]; injection h with h; rw [h]
      · rename_i hk; rw [if_neg hk, ih h]
  have e1 : upd s.w.hf j { s.w.hf j with parent := i } = s.w.hf := by
    funext j'; unfold upd; split
    · rename_i h'; subst h'; rw [← hp]
    · rfl
  have e2 : upd s.w.lv i { s.w.lv i with subs := (s.w.lv i).subs.set key j } = s.w.lv := by
    funext i'; unfold upd; split
    · rename_i h'; subst h'; rw [d _ h]
    · rfl
  simp only [ManW.assign, World.setHf, World.setLv, e1, e2]

/-- A Zeeman level assigned to a hyperfine level: it is moved by the difference between the two, keeps its own shift, and nothing else moves. -/
theorem C174_assignZ (s : ManW) (j : Nat) (key : Str) {k : Nat} {e a b : ℚ} (h : s.zHz k = .ok e) (ha : s.hHz (s.w.zl k).parent = .ok a)
    (hb : s.hHz j = .ok b) : (s.assignZ j key k).zHz k = .ok (e + (b - a)) ∧ (∀ k' ≠ k, (s.assignZ j key k).zHz k' = s.zHz k') ∧
      (∀ j', (s.assignZ j key k).hHz j' = s.hHz j') ∧ ((s.assignZ j key k).w.hf j).subs.get? key = some k := by
  set s' := s.assignZ j key k with hs'
  have ht : ∀ j', (s'.w.hf j').term = (s.w.hf j').term ∧ (s'.w.hf j').parent = (s.w.hf j').parent := by
    intro j'
    simp only [hs', ManW.assignZ, World.setHf, World.setZl, upd]
    split
    · rename_i h; subst h; exact ⟨rfl, rfl⟩
    · exact ⟨rfl, rfl⟩
  have hm : ∀ j', s'.man j' = s.man j' := by
    intro j'; unfold ManW.man; rw [(ht j').2]; rfl
  have hh : ∀ j', s'.hHz j' = s.hHz j' := by
    intro j'
    unfold ManW.hHz ManW.hShift
    rw [(ht j').1, (ht j').2, hm]
    rfl
  have hz : ∀ k' ≠ k, s'.w.zl k' = s.w.zl k' := by
    intro k' hk; simp [hs', ManW.assignZ, World.setHf, World.setZl, upd, hk]
  have hk : s'.w.zl k = { s.w.zl k with parent := j } := by simp [hs', ManW.assignZ, World.setHf, World.setZl, upd]
  refine ⟨?_, fun k' hne => ?_, hh, ?_⟩
  · unfold ManW.zHz at h ⊢
    have e1 : s'.w.zShiftHz k = s.w.zShiftHz k := by unfold World.zShiftHz; rw [hk]; rfl
    have e2 : (s'.w.zl k).parent = j := by rw [hk]
    rw [e1, e2, hh, hb]
    rw [ha] at h
    cases hd : s.w.zShiftHz k with
    | error x => rw [hd] at h; cases h
    | ok d =>
      rw [hd] at h
      injection h with h
      show Except.ok (b + d) = _
      rw [← h]; congr 1; ring
  · unfold ManW.zHz World.zShiftHz
    rw [hz k' hne, hh]
    rfl
  · simp [hs', ManW.assignZ, World.setHf, World.setZl, upd, Dict.get?_set]

namespace ManW

/-- The Zeeman levels listed in a hyperfine level have it as parent and the g-factor that `g`, the Landé factor, gives. -/
def GF (g : ℚ) (j : Nat) (s : ManW) : Prop := ∀ k ∈ (s.w.hf j).subs.vals, k < s.w.nzl ∧ (s.w.zl k).parent = j ∧
  ∃ J F, (s.w.zl k).term.J = some J ∧ (s.w.zl k).term.F = some F ∧ compGF g s.w.I J F = .ok (s.w.zl k).gF

theorem vals_set {κ : Type} [DecidableEq κ] (d : Dict κ Nat) (k : κ) (v x : Nat) (h : x ∈ (d.set k v).vals) : x = v ∨ x ∈ d.vals := by
  induction d with
  | nil => simp [Dict.set, Dict.vals] at h; exact .inl h
  | cons p t ih =>
    obtain ⟨k', v'⟩ := p
    unfold Dict.set at h
    split at h
    · simp only [Dict.vals, List.map_cons, List.mem_cons] at h ⊢
      rcases h with h | h
      · exact .inl h
      · exact .inr (.inr h)
    · simp only [Dict.vals, List.map_cons, List.mem_cons] at h ⊢
      rcases h with h | h
      · exact .inr (.inl h)
      · rcases ih h with h | h
        · exact .inl h
        · exact .inr (.inr h)

theorem popZ1_gf {g : ℚ} {j : Nat} {m : ℚ} {s s' : ManW} (hg : (s.w.lv (s.man j)).lande = g) (hs : GF g j s) (h : popZ1 j m s = (s', .ok ())) :
    (s'.w.lv (s'.man j)).lande = g ∧ GF g j s' := by
  unfold popZ1 at h
  cases ht : (s.w.hf j).term.makeCopy .none (.num m) with
  | error e => rw [ht] at h; cases h
  | ok t =>
    rw [ht] at h
    cases hJ : t.J with
    | none => simp only [hJ] at h; cases h
    | some J =>
      cases hF : t.F with
      | none => simp only [hJ, hF] at h; cases h
      | some F =>
        simp only [hJ, hF] at h
        cases hc : compGF (s.w.lv (s.man j)).lande s.w.I J F with
        | error e => rw [hc] at h; cases h
        | ok c =>
          rw [hc] at h
          injection h with h1 h2
          subst h1
          refine ⟨?_, ?_⟩
          · rw [← hg]; simp [man, upd]
          · intro k hk
            simp only [upd, if_true] at hk
            rcases vals_set _ _ _ _ hk with rfl | hk
            · refine ⟨Nat.lt_succ_self _, by simp [upd], J, F, by simp [upd, hJ], by simp [upd, hF], ?_⟩
              simp only [upd, if_true]; rw [← hg]; exact hc
            · obtain ⟨a1, a2, a3⟩ := hs k hk
              have hne : k ≠ s.w.nzl := Nat.ne_of_lt a1
              refine ⟨Nat.lt_succ_of_lt a1, ?_, ?_⟩
              · simp only [upd, if_neg hne]; exact a2
              · simp only [upd, if_neg hne]; exact a3

theorem popZs_gf {g : ℚ} {j : Nat} (ms : List ℚ) : ∀ {s s' : ManW}, (s.w.lv (s.man j)).lande = g → GF g j s → popZs j ms s = (s', .ok ()) → GF g j s' := by
  induction ms with
  | nil => intro s s' _ hs h; simp only [popZs] at h; injection h with h _; exact h ▸ hs
  | cons m ms ih =>
    intro s s' hg hs h
    unfold popZs at h
    rcases hp : popZ1 j m s with ⟨s1, r⟩
    rw [hp] at h
    cases r with
    | error e => cases h
    | ok u => exact ih (popZ1_gf hg hs hp).1 (popZ1_gf hg hs hp).2 h

theorem popZs_of (w : World) (j : Nat) (ms : List ℚ) : popZs j ms (of w) = (of (World.popZs j ms w).1, (World.popZs j ms w).2) := by
  induction ms generalizing w with
  | nil => rfl
  | cons m ms ih =>
    have e : popZ1 j m (of w) = (of (World.popZ1 j m w).1, (World.popZ1 j m w).2) := by
      have em : (of w).man j = (w.hf j).parent := rfl
      unfold popZ1 World.popZ1
      rw [em]
      show (match (w.hf j).term.makeCopy .none (.num m) with | .error e => _ | .ok t => _) = _
      cases (w.hf j).term.makeCopy .none (.num m) with
      | error e => rfl
      | ok t =>
        cases hJ : t.J with
        | none => simp only [hJ]
        | some J =>
          cases hF : t.F with
          | none => simp only [hJ, hF]
          | some F =>
            simp only [hJ, hF]
            show (match compGF (w.lv (w.hf j).parent).lande w.I J F with | .error e => _ | .ok g => _) = _
            cases compGF (w.lv (w.hf j).parent).lande w.I J F with
            | error e => rfl
            | ok g => rfl
    rcases hw : World.popZ1 j m w with ⟨w1, r⟩
    rw [hw] at e
    cases r with
    | error x =>
      have e2 : World.popZs j (m :: ms) w = (w1, .error x) := PyM.bind_err hw
      rw [e2]; simp only [popZs, e]
    | ok u =>
      have e2 : World.popZs j (m :: ms) w = World.popZs j ms w1 := PyM.bind_ok hw
      rw [e2]; simp only [popZs, e]; exact ih w1

end ManW

/-- Before anything has been assigned the Zeeman levels are made as in the atom. -/
theorem C174_agrees_zeeman (w : World) (j : Nat) : (ManW.of w).lazyZ j = (ManW.of (World.lazyZ j w).1, (World.lazyZ j w).2) := by
  unfold ManW.lazyZ World.lazyZ
  show (if (w.hf j).subs.length = 0 then _ else _) = _
  split
  · show (match (w.hf j).term.F with | some F => _ | none => _) = _
    cases (w.hf j).term.F with
    | none => rfl
    | some F => exact ManW.popZs_of w j _
  · rfl

/-- The Zeeman levels made after the hyperfine level has been assigned have g-factors from its manifold: the Landé factor of the level it has been assigned to
does not matter. -/
theorem C174_gF (s : ManW) (i : Nat) (key : Str) (j : Nat) {s' : ManW} (hn : (s.w.hf j).subs = []) (h : (s.assign i key j).lazyZ j = (s', .ok ())) :
    ∀ k ∈ (s'.w.hf j).subs.vals, (s'.w.zl k).parent = j ∧ ∃ J F, (s'.w.zl k).term.J = some J ∧ (s'.w.zl k).term.F = some F ∧
      compGF (s.w.lv (s.man j)).lande s'.w.I J F = .ok (s'.w.zl k).gF := by
  intro k hk
  have h0 : ((s.assign i key j).w.hf j).subs = [] := by rw [(ManW.assign_term s i key j j).2.1, hn]
  unfold ManW.lazyZ at h
  rw [if_pos (by rw [h0]; rfl)] at h
  cases hF : ((s.assign i key j).w.hf j).term.F with
  | none => rw [hF] at h; cases h
  | some F =>
    rw [hF] at h
    exact (ManW.popZs_gf _ (by rw [ManW.assign_man, (ManW.assign_consts s i key j _).2.2.2]) (by intro k hk; rw [h0] at hk; cases hk) h k hk).2

/-! ## Witnesses -/

/-- Levels `g` at 100 with A = 4 and `a` at 500 with A = 8, both with their hyperfine levels. -/
def asgDemo : World := runAll hfOps (emptyAtom (1 / 2) 0)

theorem asgDemo_reachable : Reachable asgDemo := (Reachable.empty _ _).runAll (by decide +kernel)

/-- `g['F=1'] = a['F=1']`: the sublevel sits at 102, where the constants of `g` would put it at 101. -/
example : ((asgDemo.hf 3).parent, (ManW.of asgDemo).hHz 3, ((ManW.of asgDemo).assign 0 "F=1".toList 3).hHz 3, (ManW.of asgDemo).hHz 1,
    (asgDemo.lv 0).subs.keys) = (1, .ok 502, .ok 102, .ok 101, ["F=0".toList, "F=1".toList]) := by decide +kernel

/-- Listed in both, then deleted from `a`. -/
example : (asgDemo.lv 1).subs.get? "F=1".toList = some 3 ∧ (((ManW.of asgDemo).assign 0 "F=1".toList 3).item 1 "F=1".toList).2 = .ok 3 ∧
    ((((ManW.of asgDemo).assign 0 "F=1".toList 3).del 1 "F=1".toList).1.item 1 "F=1".toList).2 = .error .KeyError := by decide +kernel

/-- A level without sublevels yet. -/
example : let w := (runAll [.newLevel (demoTerm 'g') 100 2 4 0 0 none, .newLevel (demoTerm 'a') 500 2 8 0 0 none, .addLevel 0 true none,
      .addLevel 1 false none] (emptyAtom (1 / 2) 0));
    (w.lv 1).subs = [] ∧ (((ManW.of w).assign 1 "F=1".toList 1).keys 1).2 = .ok ["F=1".toList] ∧ ((ManW.of w).keys 1).2 = .ok ["F=0".toList, "F=1".toList] := by
  decide +kernel

/-- Asking for its Zeeman levels then gives three. -/
example : (asgDemo.hf 3).subs = [] ∧ (((ManW.of asgDemo).assign 0 "F=1".toList 3).lazyZ 3).2 = .ok () ∧
    ((((ManW.of asgDemo).assign 0 "F=1".toList 3).lazyZ 3).1.w.hf 3).subs.keys = ["mF=-1".toList, "mF=0".toList, "mF=1".toList] := by decide +kernel

/-- A Zeeman level of `g F=1` assigned to `a F=1`: from 101 to 502. -/
example : (ManW.of asgDemo).zHz 1 = .ok 101 ∧ (asgDemo.zl 1).parent = 1 ∧ ((ManW.of asgDemo).assignZ 3 "mF=0".toList 1).zHz 1 = .ok 502 := by decide +kernel

/-- C174 is false: the sublevel keeps the constants of the level it was made in. -/
theorem C174_fails : ¬C174_full := by
  intro h
  have := h asgDemo 0 3 "F=1".toList (1 / 2) 1 1 asgDemo_reachable (by decide +kernel) (by decide +kernel) (by decide +kernel) (by decide +kernel)
    (by decide +kernel)
  have e : ((ManW.of asgDemo).assign 0 "F=1".toList 3).hHz 3 = .ok 102 := by decide +kernel
  rw [e] at this
  exact absurd this (by decide +kernel)

end AtomTk
