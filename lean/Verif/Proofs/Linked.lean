import Verif.Model.Linked
import Verif.Proofs.SubTrans
import Verif.Props.SubTrans
import Verif.Props.Subs

/-! # The graphs of sublevels after `linked_levels` -/

namespace AtomTk
open Util Strengths

/-! ## Rows of a graph -/

namespace Rows
variable {τ : Type _}

/-- The other end of an edge. -/
def oth (key : Str) (e : Str × Str) : Option Str := if key = e.1 then some e.2 else if key = e.2 then some e.1 else none

theorem addEdge_row (H : Rows τ) {u v : Str} (huv : u ≠ v) (x : τ) (key : Str) :
    (H.addEdge u v x) key = match oth key (u, v) with
      | some n => (H key).set n x
      | none => H key := by
  unfold addEdge put oth
  by_cases h1 : key = u
  · subst h1
    simp [huv]
  · by_cases h2 : key = v
    · subst h2
      simp [h1]
    · simp [h1, h2]

/-- Adding the edges of a list of pairs. -/
def addAll (m : Nat × Nat → τ) (e : Nat × Nat → Str × Str) (qs : List (Nat × Nat)) (H : Rows τ) : Rows τ :=
  qs.foldl (fun H p => H.addEdge (e p).1 (e p).2 (m p)) H

theorem addAll_get (m : Nat × Nat → τ) (e : Nat × Nat → Str × Str) (key n : Str) : ∀ (qs : List (Nat × Nat)) (H : Rows τ),
    (∀ p ∈ qs, (e p).1 ≠ (e p).2) →
    (∃ p ∈ qs, oth key (e p) = some n ∧ ((addAll m e qs H) key).get? n = some (m p)) ∨
    ((∀ p ∈ qs, oth key (e p) ≠ some n) ∧ ((addAll m e qs H) key).get? n = (H key).get? n)
  | [], H, _ => .inr ⟨by simp, rfl⟩
  | p :: qs, H, h => by
    have ih := addAll_get m e key n qs (H.addEdge (e p).1 (e p).2 (m p)) (fun q hq => h q (by simp [hq]))
    have hrow := addEdge_row H (h p (by simp)) (m p) key
    change (∃ q ∈ p :: qs, _ ∧ ((addAll m e qs (H.addEdge (e p).1 (e p).2 (m p))) key).get? n = some (m q)) ∨
      (_ ∧ ((addAll m e qs (H.addEdge (e p).1 (e p).2 (m p))) key).get? n = _)
    rcases ih with ⟨q, hq, h1, h2⟩ | ⟨h1, h2⟩
    · exact .inl ⟨q, by simp [hq], h1, h2⟩
    · rw [hrow] at h2
      by_cases hp : oth key (e p) = some n
      · left
        refine ⟨p, by simp, hp, ?_⟩
        rw [h2, show ((e p).1, (e p).2) = e p from rfl, hp]
        simp only [Dict.get?_set, if_true]
      · right
        refine ⟨?_, ?_⟩
        · intro q hq
          rcases List.mem_cons.1 hq with rfl | hq
          · exact hp
          · exact h1 q hq
        · rw [h2, show ((e p).1, (e p).2) = e p from rfl]
          cases ho : oth key (e p) with
          | none => rfl
          | some k =>
            simp only [Dict.get?_set]
            rw [if_neg]
            rintro rfl
            exact hp ho

theorem addAll_nodup (m : Nat × Nat → τ) (e : Nat × Nat → Str × Str) (key : Str) : ∀ (qs : List (Nat × Nat)) (H : Rows τ),
    (∀ p ∈ qs, (e p).1 ≠ (e p).2) → (H key).keys.Nodup → ((addAll m e qs H) key).keys.Nodup
  | [], _, _, h0 => h0
  | p :: qs, H, h, h0 => by
    refine addAll_nodup m e key qs (H.addEdge (e p).1 (e p).2 (m p)) (fun q hq => h q (by simp [hq])) ?_
    rw [addEdge_row H (h p (by simp))]
    cases oth key ((e p).1, (e p).2) with
    | none => exact h0
    | some k => exact Dict.nodup_set h0 _ _

end Rows

theorem edgeLoop_ok {τ : Type _} {ok : Nat → Nat → Py Bool} {mk : Nat → Nat → Py τ} {ends : τ → Str × Str} (g : Nat × Nat → Bool)
    (m : Nat × Nat → τ) : ∀ (ps : List (Nat × Nat)) (H : Rows τ), (∀ p ∈ ps, ok p.1 p.2 = .ok (g p)) → (∀ p ∈ ps, mk p.1 p.2 = .ok (m p)) →
    edgeLoop ok mk ends ps H = .ok (Rows.addAll m (fun p => ends (m p)) (ps.filter g) H)
  | [], _, _, _ => rfl
  | (a, b) :: ps, H, h1, h2 => by
    have ih := fun H => edgeLoop_ok (ends := ends) g m ps H (fun p hp => h1 p (by simp [hp])) (fun p hp => h2 p (by simp [hp]))
    have e1 := h1 (a, b) (by simp)
    have e2 := h2 (a, b) (by simp)
    simp only at e1 e2
    unfold edgeLoop
    rw [e1]
    simp only [bind, Except.bind]
    cases hg : g (a, b) with
    | false =>
      simp only [Bool.false_eq_true, if_false]
      rw [ih, List.filter_cons_of_neg (by simp [hg])]
    | true =>
      simp only [if_true, e2]
      rw [ih, List.filter_cons_of_pos hg]
      rfl

namespace World

/-! ## Populated levels stay as they are -/

/-- Populating leaves populated levels alone. -/
structure PopKeep (w w' : World) : Prop where
  frame : LFrame w w'
  lv : ∀ i, (w.lv i).subs ≠ [] → w'.lv i = w.lv i
  hf : ∀ j, j < w.nhf → (w.hf j).subs ≠ [] → w'.hf j = w.hf j

theorem PopKeep.refl (w : World) : PopKeep w w := ⟨.refl w, fun _ _ => rfl, fun _ _ _ => rfl⟩

theorem PopKeep.trans {a b c : World} (h1 : PopKeep a b) (h2 : PopKeep b c) : PopKeep a c :=
  ⟨LFrame.trans _ _ _ h1.frame h2.frame, fun i hi => by rw [h2.lv i (by rw [h1.lv i hi]; exact hi), h1.lv i hi],
    fun j hj hs => by rw [h2.hf j (lt_of_lt_of_le hj h1.frame.nhf) (by rw [h1.hf j hj hs]; exact hs), h1.hf j hj hs]⟩

theorem lazyHF_popKeep (i : Nat) (w : World) : PopKeep w (lazyHF i w).1 := by
  refine ⟨lazyHF_frame i w, fun k hk => ?_, fun j hj hs => ?_⟩
  · unfold lazyHF populateHF
    split
    · rename_i h0
      have hki : k ≠ i := by rintro rfl; exact hk (by simpa using h0)
      split
      · split
        · refine popHFs_inv (fun w1 => w1.lv k = w.lv k) i (fun w1 _ _ f g hw1 _ _ _ => ?_) _ w rfl
          simp only [popHF1']
          rw [upd_ne _ _ _ hki]; exact hw1
        · rfl
      · rfl
    · rfl
  · unfold lazyHF populateHF
    split
    · split
      · split
        · refine (popHFs_inv (fun w1 => w.nhf ≤ w1.nhf ∧ w1.hf j = w.hf j) i (fun w1 _ _ f g hw1 _ _ _ => ?_) _ w ⟨le_refl _, rfl⟩).2
          simp only [popHF1']
          rw [upd_ne _ _ _ (Nat.ne_of_lt (lt_of_lt_of_le hj hw1.1))]
          exact ⟨Nat.le_succ_of_le hw1.1, hw1.2⟩
        · rfl
      · rfl
    · rfl

theorem lazyZ_popKeep (j : Nat) (w : World) : PopKeep w (lazyZ j w).1 := by
  refine ⟨lazyZ_frame j w, fun k hk => ?_, fun k hk hs => ?_⟩
  · unfold lazyZ
    split
    · split
      · refine popZs_inv (fun w1 => w1.lv k = w.lv k) j (fun w1 _ _ f g hw1 _ _ _ => ?_) _ w rfl
        exact hw1
      · rfl
    · rfl
  · unfold lazyZ
    split
    · rename_i h0
      have hki : k ≠ j := by rintro rfl; exact hs (by simpa using h0)
      split
      · refine popZs_inv (fun w1 => w1.hf k = w.hf k) j (fun w1 _ _ f g hw1 _ _ _ => ?_) _ w rfl
        simp only [popZ1']
        rw [upd_ne _ _ _ hki]; exact hw1
      · rfl
    · rfl

theorem IsHyp.carry {w w' : World} (h : LFrame w w') {i j : Nat} {J F : ℚ} (hl : w'.lv i = w.lv i) (hj : IsHyp w i J j F) : IsHyp w' i J j F := by
  obtain ⟨s, hs⟩ := h.hf j hj.lt
  exact ⟨by rw [h.I]; exact hj.mem, by rw [hl]; exact hj.get, by rw [hs]; exact hj.J, by rw [hs]; exact hj.F, by rw [hs]; exact hj.mF,
    by rw [hs]; exact hj.par, lt_of_lt_of_le hj.lt h.nhf⟩

/-- The sublevels of a populated level are the same afterwards. -/
theorem PopKeep.hyp {w w' : World} (h : PopKeep w w') (hi : SubInv w) {i j : Nat} {J F : ℚ} (hp : (w.lv i).subs ≠ [])
    (hJ : (w.lv i).term.J = some J) (hF : (w.lv i).term.F = none) : IsHyp w' i J j F ↔ IsHyp w i J j F := by
  have hl := h.lv i hp
  constructor
  · intro hj
    have hg := hj.get
    rw [hl] at hg
    obtain ⟨F', hF'⟩ := hyp_of_get hi hJ hF hg
    obtain ⟨s, hs⟩ := h.frame.hf j hF'.lt
    have := hj.F
    rw [hs] at this
    simp only at this
    rw [hF'.F] at this
    cases this
    exact hF'
  · exact IsHyp.carry h.frame hl

theorem IsHyp.pop {w : World} {i j : Nat} {J F : ℚ} (h : IsHyp w i J j F) : (w.lv i).subs ≠ [] := by
  intro h0
  have := h.get
  rw [h0] at this
  cases this

/-- The name of a hyperfine level. -/
theorem hyp_fullName {w : World} (hi : SubInv w) {i j : Nat} {J F : ℚ} (h : IsHyp w i J j F) (hF : (w.lv i).term.F = none)
    (hM : (w.lv i).term.mF = none) : w.hFull j = hypText (w.lname i) F := by
  obtain ⟨-, -, F', h3, h4⟩ := hi.subs.hfOf i _ j h.get
  have e := h.F
  rw [h4] at e
  simp only [Term.withF, hF, Option.getD_none, Option.some.injEq] at e
  subst e
  unfold hFull
  rw [h4]
  exact name_withF hF hM _

theorem sep_last {c : Char} {a b x y : Str} (hx : c ∉ x) (hy : c ∉ y) (h : a ++ c :: x = b ++ c :: y) : a = b ∧ x = y := by
  have key : ∀ {a b x y : Str}, c ∉ x → c ∉ y → a ++ c :: x = b ++ c :: y → a.length ≤ b.length → a = b ∧ x = y := by
    intro a b x y hx hy h hl
    induction a generalizing b with
    | nil =>
      cases b with
      | nil => simpa using h
      | cons d b =>
        exfalso
        simp only [List.nil_append, List.cons_append, List.cons.injEq] at h
        exact hx (by rw [h.2]; simp)
    | cons d a ih =>
      cases b with
      | nil => simp at hl
      | cons e b =>
        simp only [List.cons_append, List.cons.injEq] at h
        obtain ⟨h1, h2⟩ := ih h.2 (by simpa using hl)
        exact ⟨by rw [h.1, h1], h2⟩
  rcases le_total a.length b.length with h0 | h0
  · exact key hx hy h h0
  · obtain ⟨h1, h2⟩ := key hy hx h.symm h0
    exact ⟨h1.symm, h2.symm⟩

theorem hypText_inj {n n' : Str} {F F' : ℚ} (hF : IsHalfInt F) (hF' : IsHalfInt F') (h : hypText n F = hypText n' F') : n = n' ∧ F = F' := by
  have e : ∀ (n : Str) (F : ℚ), hypText n F = (n ++ [' ', 'F']) ++ '=' :: numToFrac F := fun n F => by simp [hypText]
  rw [e, e] at h
  obtain ⟨h1, h2⟩ := sep_last (frac_no hF (by decide) (by decide) (by decide)) (frac_no hF' (by decide) (by decide) (by decide)) h
  exact ⟨List.append_cancel_right h1, fKey_inj hF hF' (by unfold fKey; rw [h2])⟩

/-! ## The edges of one transition -/

/-- `x` is the hyperfine transition of `t` that joins the node `key` to the node `n`. -/
def HEdge (w : World) (key : Str) (t : Nat) (J1 J2 : ℚ) (n : Str) (x : HTr) : Prop := ∃ a b F1 F2,
  IsHyp w (w.tr t).e1 J1 a F1 ∧ IsHyp w (w.tr t).e2 J2 b F2 ∧ pairOk (w.tr t).allowed (some F1) (some F2) = .ok true ∧
    x = w.mkHTr t a b J1 F1 J2 F2 ∧ Rows.oth key (w.hEnds x) = some n

/-- Filling in sublevels is something a caller can do. -/
theorem lazyHF_reach {w w' : World} (hr : Reachable w) {i : Nat} (h : lazyHF i w = (w', .ok ())) : Reachable w' := by
  have h1 := Reachable.step (.getSub (.fine i) []) hr trivial
  rw [show ((Op.getSub (.fine i) []).run w).1 = (lvItem i [] w).1 from Op.void_fst _ _] at h1
  have : (lvItem i [] w).1 = w' := by
    unfold lvItem
    rw [PyM.bind_ok h, PyM.bind_ok (show PyM.get w' = (w', .ok w') from rfl), if_neg (by rintro ⟨-, h⟩; revert h; decide)]
    cases hg : (w'.lv i).subs.getE [] with
    | ok j => rw [PyM.bind_ok (show PyM.lift (.ok j) w' = (w', .ok j) from rfl)]; rfl
    | error e => rw [PyM.bind_err (show PyM.lift (.error e) w' = (w', .error e) from rfl)]
  rwa [this] at h1

theorem lazyZ_reach {w w' : World} (hr : Reachable w) {j : Nat} (h : lazyZ j w = (w', .ok ())) : Reachable w' := by
  have h1 := Reachable.step (.getSub (.hyp j) []) hr trivial
  rw [show ((Op.getSub (.hyp j) []).run w).1 = (refItem (.hyp j) [] w).1 from Op.void_fst _ _] at h1
  have : (refItem (.hyp j) [] w).1 = w' := by
    have : (hfItem j [] w).1 = w' := by
      unfold hfItem
      rw [PyM.bind_ok h, PyM.bind_ok (show PyM.get w' = (w', .ok w') from rfl), if_neg (by rintro ⟨-, h⟩; revert h; decide)]
      rfl
    unfold refItem
    simp only
    cases hq : hfItem j [] w with
    | mk w2 r =>
      rw [hq] at this
      subst this
      cases r with
      | ok k => rw [PyM.bind_ok hq]; rfl
      | error e => rw [PyM.bind_err hq]
  rwa [this] at h1

theorem lazyHF_full {w : World} (h : SubInv w) (hI : IsSpin w.I) {i : Nat} {J : ℚ} (hin : (w.lv i).inAtom = true)
    (hJ : (w.lv i).term.J = some J) (hs : IsSpin J) (hF : (w.lv i).term.F = none) :
    ∃ w', lazyHF i w = (w', .ok ()) ∧ PopKeep w w' ∧ SubInv w' ∧ (w'.lv i).subs ≠ [] := by
  obtain ⟨w', h1, h2, h3⟩ := lazyHF_ok h.keys hI hin hJ hs hF
  have hk := lazyHF_popKeep i w
  have hin : SubInv w' := by
    have := h.steps (lazyHF_steps (C := fun _ _ _ => True) i w)
    rwa [h1] at this
  rw [h1] at hk
  refine ⟨w', h1, hk, hin, fun h0 => ?_⟩
  rw [keys_nil h0] at h2
  exact hfFs_ne hI hs (by simpa using h2.symm)

theorem pairOk_some (al : Types) (F1 F2 : ℚ) : ∃ g, pairOk al (some F1) (some F2) = .ok g := by
  unfold pairOk
  cases maxDelta al <;> exact ⟨_, rfl⟩

/-- The names of the two levels of a transition differ and have no sublevel marks. -/
structure Apart (w : World) (t : Nat) : Prop where
  ne : w.lname (w.tr t).e1 ≠ w.lname (w.tr t).e2
  M1 : (w.lv (w.tr t).e1).term.mF = none
  M2 : (w.lv (w.tr t).e2).term.mF = none

theorem LFrame.lname {w w' : World} (h : LFrame w w') (i : Nat) : w'.lname i = w.lname i := by
  unfold World.lname
  rw [h.term]

theorem Apart.frame {w w' : World} {t : Nat} (h : Apart w t) (hf : LFrame w w') : Apart w' t := by
  refine ⟨?_, ?_, ?_⟩
  · rw [hf.tr, hf.lname, hf.lname]; exact h.ne
  · rw [hf.tr, hf.term]; exact h.M1
  · rw [hf.tr, hf.term]; exact h.M2

theorem hEnds_ne {w : World} (hi : SubInv w) {t : Nat} {J1 J2 : ℚ} (hr : SubReady w t J1 J2) (hn : Apart w t) {a b : Nat} {F1 F2 : ℚ}
    (h1 : IsHyp w (w.tr t).e1 J1 a F1) (h2 : IsHyp w (w.tr t).e2 J2 b F2) :
    (w.hEnds (w.mkHTr t a b J1 F1 J2 F2)).1 ≠ (w.hEnds (w.mkHTr t a b J1 F1 J2 F2)).2 := by
  have hab : w.hFull a ≠ w.hFull b := by
    rw [hyp_fullName hi h1 hr.F1 hn.M1, hyp_fullName hi h2 hr.F2 hn.M2]
    intro h
    exact hn.ne (hypText_inj (hfFs_spin hr.hI hr.s1 h1.mem).isHalfInt (hfFs_spin hr.hI hr.s2 h2.mem).isHalfInt h).1
  unfold hEnds mkHTr
  simp only
  split
  · exact hab
  · exact hab.symm

theorem hypEdges_spec {W : Wig} (hW : W.Good) {w : World} (h : SubInv w) {t : Nat} {J1 J2 : ℚ} (hr : SubReady w t J1 J2) (hn : Apart w t)
    (H : Rows HTr) : ∃ w' H', hypEdges W t H w = (w', .ok H') ∧ (Reachable w → Reachable w') ∧ PopKeep w w' ∧ SubInv w' ∧ (w'.lv (w'.tr t).e1).subs ≠ [] ∧
      (w'.lv (w'.tr t).e2).subs ≠ [] ∧ (∀ key, (H key).keys.Nodup → (H' key).keys.Nodup) ∧
      ∀ key n, (∃ x, HEdge w' key t J1 J2 n x ∧ (H' key).get? n = some x) ∨
        ((∀ x, ¬HEdge w' key t J1 J2 n x) ∧ (H' key).get? n = (H key).get? n) := by
  obtain ⟨w1, a1, a2, a3, a4⟩ := lazyHF_full h hr.hI hr.in1 hr.hJ1 hr.s1 hr.F1
  have hr1 := hr.frame a2.frame
  have e2 : (w1.tr t).e2 = (w.tr t).e2 := by rw [a2.frame.tr]
  obtain ⟨w2, b1, b2, b3, b4⟩ := lazyHF_full a3 hr1.hI hr1.in2 hr1.hJ2 hr1.s2 hr1.F2
  have hr2 := hr1.frame b2.frame
  have hn2 := (hn.frame a2.frame).frame b2.frame
  have k1 : (w2.lv (w2.tr t).e1).subs ≠ [] := by
    rw [b2.frame.tr, a2.frame.tr, b2.lv _ a4]; exact a4
  have k2 : (w2.lv (w2.tr t).e2).subs ≠ [] := by rw [b2.frame.tr]; exact b4
  have v1 := hyp_vals b3 hr2.hI hr2.hJ1 hr2.s1 hr2.F1
  have v2 := hyp_vals b3 hr2.hI hr2.hJ2 hr2.s2 hr2.F2
  set ps := product (w2.lv (w2.tr t).e1).subs.vals (w2.lv (w2.tr t).e2).subs.vals with hps
  let Fo : Nat → ℚ := fun a => ((w2.hf a).term.F).getD 0
  let m : Nat × Nat → HTr := fun p => w2.mkHTr t p.1 p.2 J1 (Fo p.1) J2 (Fo p.2)
  let g : Nat × Nat → Bool := fun p => match pairOk (w2.tr t).allowed (some (Fo p.1)) (some (Fo p.2)) with
    | .ok b => b
    | .error _ => false
  have hFo : ∀ {i j : Nat} {J F : ℚ}, IsHyp w2 i J j F → Fo j = F := fun hj => by simp only [Fo, hj.F, Option.getD_some]
  have m1 : ∀ p ∈ ps, IsHyp w2 (w2.tr t).e1 J1 p.1 (Fo p.1) ∧ IsHyp w2 (w2.tr t).e2 J2 p.2 (Fo p.2) := by
    rintro ⟨a, b⟩ hp
    rw [hps, mem_product, v1, v2] at hp
    obtain ⟨⟨F1, h1⟩, F2, h2⟩ := hp
    simp only [hFo h1, hFo h2]
    exact ⟨h1, h2⟩
  have hloop := edgeLoop_ok (ok := fun a b => pairOk (w2.tr t).allowed (w2.hf a).term.F (w2.hf b).term.F) (mk := w2.newHTr W t)
    (ends := w2.hEnds) g m ps H
    (by
      intro p hp
      obtain ⟨h1, h2⟩ := m1 p hp
      simp only [h1.F, h2.F, g]
      obtain ⟨b, hb⟩ := pairOk_some (w2.tr t).allowed (Fo p.1) (Fo p.2)
      rw [hb])
    (by
      intro p hp
      obtain ⟨h1, h2⟩ := m1 p hp
      exact newHTr_ok hW hr2.hI hr2.s1 hr2.s2 h1 h2)
  have hne : ∀ p ∈ ps.filter g, (w2.hEnds (m p)).1 ≠ (w2.hEnds (m p)).2 := by
    intro p hp
    obtain ⟨h1, h2⟩ := m1 p (List.mem_filter.1 hp).1
    exact hEnds_ne b3 hr2 hn2 h1 h2
  have hedge : ∀ key n x, HEdge w2 key t J1 J2 n x ↔ ∃ p ∈ ps.filter g, Rows.oth key (w2.hEnds (m p)) = some n ∧ x = m p := by
    intro key n x
    constructor
    · rintro ⟨a, b, F1, F2, h1, h2, h3, rfl, h4⟩
      refine ⟨(a, b), List.mem_filter.2 ⟨?_, ?_⟩, ?_, ?_⟩
      · rw [hps, mem_product, v1, v2]; exact ⟨⟨F1, h1⟩, F2, h2⟩
      · simp only [g, hFo h1, hFo h2, h3]
      · simp only [m, hFo h1, hFo h2]; exact h4
      · simp only [m, hFo h1, hFo h2]
    · rintro ⟨p, hp, h4, rfl⟩
      obtain ⟨hp1, hp2⟩ := List.mem_filter.1 hp
      obtain ⟨h1, h2⟩ := m1 p hp1
      refine ⟨p.1, p.2, Fo p.1, Fo p.2, h1, h2, ?_, rfl, h4⟩
      obtain ⟨b, hb⟩ := pairOk_some (w2.tr t).allowed (Fo p.1) (Fo p.2)
      simp only [g, hb] at hp2
      rw [hb, hp2]
  refine ⟨w2, Rows.addAll m (fun p => w2.hEnds (m p)) (ps.filter g) H, ?_, fun hr => lazyHF_reach (lazyHF_reach hr a1) b1, a2.trans b2, b3, k1, k2, ?_, ?_⟩
  · unfold hypEdges
    rw [PyM.bind_ok (show PyM.get w = (w, .ok w) from rfl), PyM.bind_ok a1, ← e2, PyM.bind_ok b1,
      PyM.bind_ok (show PyM.get w2 = (w2, .ok w2) from rfl)]
    unfold PyM.lift
    rw [hloop]
  · intro key hk
    exact Rows.addAll_nodup _ _ key _ _ hne hk
  · intro key n
    rcases Rows.addAll_get m (fun p => w2.hEnds (m p)) key n (ps.filter g) H hne with ⟨p, hp, h1, h2⟩ | ⟨h1, h2⟩
    · exact .inl ⟨m p, (hedge key n _).2 ⟨p, hp, h1, rfl⟩, h2⟩
    · refine .inr ⟨fun x hx => ?_, h2⟩
      obtain ⟨p, hp, h3, -⟩ := (hedge key n x).1 hx
      exact h1 p hp h3

/-! ## The edges of all transitions of a level -/

/-- Some numbers make `x` the hyperfine transition of `t` from `key` to `n`. -/
def HEdge' (w : World) (key : Str) (t : Nat) (n : Str) (x : HTr) : Prop :=
  ∃ J1 J2, SubReady w t J1 J2 ∧ HEdge w key t J1 J2 n x

theorem LFrame.mkHTr {w w' : World} (h : LFrame w w') (t a b : Nat) (J1 F1 J2 F2 : ℚ) :
    w'.mkHTr t a b J1 F1 J2 F2 = w.mkHTr t a b J1 F1 J2 F2 := by
  unfold World.mkHTr
  simp only [h.tr, h.I, h.hypE]

theorem LFrame.hFull {w w' : World} (h : LFrame w w') {j : Nat} (hj : j < w.nhf) : w'.hFull j = w.hFull j := by
  obtain ⟨s, hs⟩ := h.hf j hj
  unfold World.hFull
  rw [hs]

theorem SubReady.back {w w' : World} {t : Nat} {J1 J2 : ℚ} (h : SubReady w' t J1 J2) (hf : LFrame w w') : SubReady w t J1 J2 := by
  have := h.in1; have := h.in2; have := h.hJ1; have := h.hJ2; have := h.F1; have := h.F2; have := h.hI
  simp only [hf.tr, hf.inAtom, hf.term, hf.I] at *
  exact ⟨by assumption, by assumption, by assumption, by assumption, by assumption, h.s1, h.s2, by assumption, by assumption⟩

theorem PopKeep.edge {w w' : World} (h : PopKeep w w') (hi : SubInv w) {t : Nat} (h1 : (w.lv (w.tr t).e1).subs ≠ [])
    (h2 : (w.lv (w.tr t).e2).subs ≠ []) (key n : Str) (x : HTr) : HEdge' w' key t n x ↔ HEdge' w key t n x := by
  have ends : ∀ {a b : Nat} {J1 F1 J2 F2 : ℚ}, IsHyp w (w.tr t).e1 J1 a F1 → IsHyp w (w.tr t).e2 J2 b F2 →
      w'.hEnds (w.mkHTr t a b J1 F1 J2 F2) = w.hEnds (w.mkHTr t a b J1 F1 J2 F2) := by
    intro a b J1 F1 J2 F2 ha hb
    unfold hEnds World.mkHTr
    simp only
    split <;> rw [h.frame.hFull ha.lt, h.frame.hFull hb.lt]
  constructor
  · rintro ⟨J1, J2, hr, a, b, F1, F2, p1, p2, p3, p4, p5⟩
    have hr0 := hr.back h.frame
    rw [h.frame.tr] at p1 p2 p3
    rw [h.hyp hi h1 hr0.hJ1 hr0.F1] at p1
    rw [h.hyp hi h2 hr0.hJ2 hr0.F2] at p2
    rw [h.frame.mkHTr] at p4
    subst p4
    rw [ends p1 p2] at p5
    exact ⟨J1, J2, hr0, a, b, F1, F2, p1, p2, p3, rfl, p5⟩
  · rintro ⟨J1, J2, hr0, a, b, F1, F2, p1, p2, p3, p4, p5⟩
    subst p4
    refine ⟨J1, J2, hr0.frame h.frame, a, b, F1, F2, ?_, ?_, ?_, ?_, ?_⟩
    · rw [h.frame.tr, h.hyp hi h1 hr0.hJ1 hr0.F1]; exact p1
    · rw [h.frame.tr, h.hyp hi h2 hr0.hJ2 hr0.F2]; exact p2
    · rw [h.frame.tr]; exact p3
    · rw [h.frame.mkHTr]
    · rw [ends p1 p2]; exact p5

theorem SubReady.unique {w : World} {t : Nat} {J1 J2 K1 K2 : ℚ} (h : SubReady w t J1 J2) (h' : SubReady w t K1 K2) : J1 = K1 ∧ J2 = K2 := by
  have a := h.hJ1; have b := h.hJ2
  rw [h'.hJ1] at a; rw [h'.hJ2] at b
  cases a; cases b
  exact ⟨rfl, rfl⟩

theorem hypEdgesAll_spec {W : Wig} (hW : W.Good) : ∀ (ts : List Nat) (w : World) (H : Rows HTr), SubInv w →
    (∀ t ∈ ts, (∃ J1 J2, SubReady w t J1 J2) ∧ Apart w t) →
    ∃ w' H', hypEdgesAll W ts H w = (w', .ok H') ∧ (Reachable w → Reachable w') ∧ PopKeep w w' ∧ SubInv w' ∧
      (∀ t ∈ ts, (w'.lv (w'.tr t).e1).subs ≠ [] ∧ (w'.lv (w'.tr t).e2).subs ≠ []) ∧
      (∀ key, (H key).keys.Nodup → (H' key).keys.Nodup) ∧
      ∀ key n, (∃ t ∈ ts, ∃ x, HEdge' w' key t n x ∧ (H' key).get? n = some x) ∨
        ((∀ t ∈ ts, ∀ x, ¬HEdge' w' key t n x) ∧ (H' key).get? n = (H key).get? n)
  | [], w, H, hi, _ => ⟨w, H, rfl, id, .refl w, hi, by simp, fun _ h => h, fun _ _ => .inr ⟨by simp, rfl⟩⟩
  | t :: ts, w, H, hi, hr => by
    obtain ⟨⟨J1, J2, hr0⟩, hn⟩ := hr t (by simp)
    obtain ⟨w1, H1, a1, ra, a2, a3, a4, a5, a6, a7⟩ := hypEdges_spec hW hi hr0 hn H
    obtain ⟨w2, H2, b1, rb, b2, b3, b4, b5, b6⟩ := hypEdgesAll_spec hW ts w1 H1 a3 (fun u hu => by
      obtain ⟨⟨K1, K2, h1⟩, h2⟩ := hr u (by simp [hu])
      exact ⟨⟨K1, K2, h1.frame a2.frame⟩, h2.frame a2.frame⟩)
    have hr1 := hr0.frame a2.frame
    refine ⟨w2, H2, ?_, fun hr => rb (ra hr), a2.trans b2, b3, ?_, fun key hk => b5 key (a6 key hk), fun key n => ?_⟩
    · unfold hypEdgesAll
      rw [PyM.bind_ok a1, b1]
    · intro u hu
      rcases List.mem_cons.1 hu with rfl | hu
      · rw [b2.frame.tr, b2.lv _ a4, b2.lv _ a5]; exact ⟨a4, a5⟩
      · exact b4 u hu
    · rcases b6 key n with ⟨u, hu, x, h1, h2⟩ | ⟨h1, h2⟩
      · exact .inl ⟨u, by simp [hu], x, h1, h2⟩
      · rcases a7 key n with ⟨x, h3, h4⟩ | ⟨h3, h4⟩
        · refine .inl ⟨t, by simp, x, (b2.edge a3 a4 a5 key n x).2 ⟨J1, J2, hr1, h3⟩, ?_⟩
          rw [h2, h4]
        · refine .inr ⟨?_, by rw [h2, h4]⟩
          intro u hu x hx
          rcases List.mem_cons.1 hu with rfl | hu
          · obtain ⟨K1, K2, hk, hx⟩ := (b2.edge a3 a4 a5 key n x).1 hx
            obtain ⟨rfl, rfl⟩ := hk.unique hr1
            exact h3 x hx
          · exact h1 u hu x hx

end World
end AtomTk
