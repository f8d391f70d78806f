import Verif.Proofs.Linked

/-! # The graph of Zeeman levels after `linked_levels` -/

namespace AtomTk
open Util Strengths

namespace World

theorem zeeText_inj {n n' : Str} {F F' m m' : ℚ} (hF : IsHalfInt F) (hF' : IsHalfInt F') (hm : IsHalfInt m) (hm' : IsHalfInt m')
    (h : zeeText n F m = zeeText n' F' m') : n = n' ∧ F = F' ∧ m = m' := by
  have e : ∀ (n : Str) (F m : ℚ), zeeText n F m = (hypText n F ++ [' ', 'm', 'F']) ++ '=' :: numToFrac m := fun n F m => by simp [zeeText]
  rw [e, e] at h
  obtain ⟨h1, h2⟩ := sep_last (frac_no hm (by decide) (by decide) (by decide)) (frac_no hm' (by decide) (by decide) (by decide)) h
  obtain ⟨h3, h4⟩ := hypText_inj hF hF' (List.append_cancel_right h1)
  exact ⟨h3, h4, mKey_inj hm hm' (by unfold mKey; rw [h2])⟩

/-- The name of a Zeeman level. -/
theorem zee_fullName {w : World} (hi : SubInv w) {i j k : Nat} {J F m : ℚ} (h : IsHyp w i J j F) (hF : (w.lv i).term.F = none)
    (hM : (w.lv i).term.mF = none) (hz : IsZee w j F k m) : w.zFull k = zeeText (w.lname i) F m := by
  obtain ⟨-, -, F', h3, h4⟩ := hi.subs.hfOf i _ j h.get
  have e := h.F
  rw [h4] at e
  simp only [Term.withF, hF, Option.getD_none, Option.some.injEq] at e
  subst e
  obtain ⟨-, -, m', h5, h6⟩ := hi.subs.zlOf j _ k hz.get
  have e := hz.mF
  rw [h6] at e
  simp only [Term.withM, Option.some.injEq] at e
  subst e
  unfold zFull
  rw [h6, h4]
  exact name_withM hF hM _ _

theorem IsZee.unique {w : World} {j k k' : Nat} {F F' m : ℚ} (h : IsZee w j F k m) (h' : IsZee w j F' k' m) : k = k' := by
  have := h.get
  rw [h'.get] at this
  cases this; rfl

theorem IsZee.pop {w : World} {j k : Nat} {F m : ℚ} (h : IsZee w j F k m) : (w.hf j).subs ≠ [] := by
  intro h0
  have := h.get
  rw [h0] at this
  cases this

/-- The Zeeman levels of a populated level are the same afterwards. -/
theorem PopKeep.zee {w w' : World} (h : PopKeep w w') (hi : SubInv w) {j k : Nat} {F m : ℚ} (hj : j < w.nhf) (hp : (w.hf j).subs ≠ [])
    (hF : (w.hf j).term.F = some F) : IsZee w' j F k m ↔ IsZee w j F k m := by
  have hl := h.hf j hj hp
  constructor
  · intro hz
    have hg := hz.get
    rw [hl] at hg
    obtain ⟨m', hm'⟩ := zee_of_get hi hF hg
    have := hz.mF
    rw [h.frame.zl k hm'.lt, hm'.mF] at this
    cases this
    exact hm'
  · intro hz
    have e := h.frame.zl k hz.lt
    exact ⟨hz.mem, by rw [hl]; exact hz.get, by rw [e]; exact hz.F, by rw [e]; exact hz.mF, by rw [e]; exact hz.par,
      lt_of_lt_of_le hz.lt h.frame.nzl⟩

/-- The levels of a hyperfine transition: sublevels of two levels of different names without sublevel marks. -/
structure ZApart (w : World) (x : HTr) (i1 i2 : Nat) (J1 F1 J2 F2 : ℚ) : Prop where
  h1 : IsHyp w i1 J1 x.e1 F1
  h2 : IsHyp w i2 J2 x.e2 F2
  s1 : IsSpin F1
  s2 : IsSpin F2
  f1 : (w.lv i1).term.F = none
  f2 : (w.lv i2).term.F = none
  m1 : (w.lv i1).term.mF = none
  m2 : (w.lv i2).term.mF = none
  ne : w.lname i1 ≠ w.lname i2

theorem ZApart.ready {w : World} {x : HTr} {i1 i2 : Nat} {J1 F1 J2 F2 : ℚ} (h : ZApart w x i1 i2 J1 F1 J2 F2) :
    ZReady w x i1 i2 J1 F1 J2 F2 :=
  ⟨h.h1.lt, h.h2.lt, h.h1.J, h.h2.J, h.h1.F, h.h2.F, h.h1.par, h.h2.par, h.s1, h.s2⟩

theorem ZApart.keep {w w' : World} {x : HTr} {i1 i2 : Nat} {J1 F1 J2 F2 : ℚ} (h : ZApart w x i1 i2 J1 F1 J2 F2) (hk : PopKeep w w') :
    ZApart w' x i1 i2 J1 F1 J2 F2 := by
  refine ⟨h.h1.carry hk.frame (hk.lv _ h.h1.pop), h.h2.carry hk.frame (hk.lv _ h.h2.pop), h.s1, h.s2, ?_, ?_, ?_, ?_, ?_⟩
  · rw [hk.frame.term]; exact h.f1
  · rw [hk.frame.term]; exact h.f2
  · rw [hk.frame.term]; exact h.m1
  · rw [hk.frame.term]; exact h.m2
  · rw [hk.frame.lname, hk.frame.lname]; exact h.ne

theorem ZApart.unique {w : World} {x : HTr} {i1 i2 k1 k2 : Nat} {J1 F1 J2 F2 L1 G1 L2 G2 : ℚ} (h : ZApart w x i1 i2 J1 F1 J2 F2)
    (h' : ZApart w x k1 k2 L1 G1 L2 G2) : i1 = k1 ∧ i2 = k2 ∧ J1 = L1 ∧ F1 = G1 ∧ J2 = L2 ∧ F2 = G2 :=
  ⟨h.h1.par.symm.trans h'.h1.par, h.h2.par.symm.trans h'.h2.par, Option.some.inj (h.h1.J.symm.trans h'.h1.J),
    Option.some.inj (h.h1.F.symm.trans h'.h1.F), Option.some.inj (h.h2.J.symm.trans h'.h2.J), Option.some.inj (h.h2.F.symm.trans h'.h2.F)⟩

/-- `y` is the Zeeman transition of `x` that joins the node `key` to the node `n`. -/
def ZEdge (w : World) (key : Str) (x : HTr) (i1 i2 : Nat) (J1 F1 J2 F2 : ℚ) (n : Str) (y : ZTr) : Prop := ∃ a b m1 m2,
  IsZee w x.e1 F1 a m1 ∧ IsZee w x.e2 F2 b m2 ∧ pairOk x.allowed (some m1) (some m2) = .ok true ∧
    y = w.mkZTr x i1 i2 a b J1 F1 m1 J2 F2 m2 ∧ Rows.oth key (w.zEnds y) = some n

theorem zFull_ne {w : World} (hi : SubInv w) {x : HTr} {i1 i2 : Nat} {J1 F1 J2 F2 : ℚ} (hr : ZApart w x i1 i2 J1 F1 J2 F2)
    {a b : Nat} {m1 m2 : ℚ} (h1 : IsZee w x.e1 F1 a m1) (h2 : IsZee w x.e2 F2 b m2) : w.zFull a ≠ w.zFull b := by
  rw [zee_fullName hi hr.h1 hr.f1 hr.m1 h1, zee_fullName hi hr.h2 hr.f2 hr.m2 h2]
  intro h
  exact hr.ne (zeeText_inj hr.s1.isHalfInt hr.s2.isHalfInt (zMs_half hr.s1 h1.mem) (zMs_half hr.s2 h2.mem) h).1

theorem zEnds_ne {w : World} (hi : SubInv w) {x : HTr} {i1 i2 : Nat} {J1 F1 J2 F2 : ℚ} (hr : ZApart w x i1 i2 J1 F1 J2 F2)
    {a b : Nat} {m1 m2 : ℚ} (h1 : IsZee w x.e1 F1 a m1) (h2 : IsZee w x.e2 F2 b m2) :
    (w.zEnds (w.mkZTr x i1 i2 a b J1 F1 m1 J2 F2 m2)).1 ≠ (w.zEnds (w.mkZTr x i1 i2 a b J1 F1 m1 J2 F2 m2)).2 := by
  have hab := zFull_ne hi hr h1 h2
  unfold zEnds mkZTr
  simp only
  split
  · exact hab
  · exact hab.symm

theorem lazyZ_full {w : World} (h : SubInv w) {j : Nat} {J F : ℚ} (hJ : (w.hf j).term.J = some J)
    (hF : (w.hf j).term.F = some F) (hs : IsSpin F) :
    ∃ w', lazyZ j w = (w', .ok ()) ∧ PopKeep w w' ∧ SubInv w' ∧ (w'.hf j).subs ≠ [] := by
  obtain ⟨w', h1, h2, h3⟩ := lazyZ_ok h.keys hJ hF hs
  have hk := lazyZ_popKeep j w
  have hin : SubInv w' := by
    have := h.steps (lazyZ_steps (C := fun _ _ _ => True) j w)
    rwa [h1] at this
  rw [h1] at hk
  refine ⟨w', h1, hk, hin, fun h0 => ?_⟩
  rw [keys_nil h0] at h2
  exact zMs_ne hs (by simpa using h2.symm)

theorem zeeEdges_spec {W : Wig} (hW : W.Good) {w : World} (h : SubInv w) {x : HTr} {i1 i2 : Nat} {J1 F1 J2 F2 : ℚ}
    (hr : ZApart w x i1 i2 J1 F1 J2 F2) (Z : Rows ZTr) :
    ∃ w' Z', zeeEdges W x Z w = (w', .ok Z') ∧ (Reachable w → Reachable w') ∧ PopKeep w w' ∧ SubInv w' ∧ (w'.hf x.e1).subs ≠ [] ∧
      (w'.hf x.e2).subs ≠ [] ∧ (∀ key, (Z key).keys.Nodup → (Z' key).keys.Nodup) ∧
      ∀ key n, (∃ y, ZEdge w' key x i1 i2 J1 F1 J2 F2 n y ∧ (Z' key).get? n = some y) ∨
        ((∀ y, ¬ZEdge w' key x i1 i2 J1 F1 J2 F2 n y) ∧ (Z' key).get? n = (Z key).get? n) := by
  obtain ⟨w1, a1, a2, a3, a4⟩ := lazyZ_full h hr.h1.J hr.h1.F hr.s1
  have hr1 := hr.keep a2
  obtain ⟨w2, b1, b2, b3, b4⟩ := lazyZ_full a3 hr1.h2.J hr1.h2.F hr1.s2
  have hr2 := hr1.keep b2
  have k1 : (w2.hf x.e1).subs ≠ [] := by rw [b2.hf _ hr1.h1.lt a4]; exact a4
  have v1 := zee_vals b3 hr2.h1.J hr2.h1.F hr2.s1
  have v2 := zee_vals b3 hr2.h2.J hr2.h2.F hr2.s2
  set ps := product (w2.hf x.e1).subs.vals (w2.hf x.e2).subs.vals with hps
  let Mo : Nat → ℚ := fun a => ((w2.zl a).term.mF).getD 0
  let m : Nat × Nat → ZTr := fun p => w2.mkZTr x i1 i2 p.1 p.2 J1 F1 (Mo p.1) J2 F2 (Mo p.2)
  let g : Nat × Nat → Bool := fun p => match pairOk x.allowed (some (Mo p.1)) (some (Mo p.2)) with
    | .ok b => b
    | .error _ => false
  have hMo : ∀ {j k : Nat} {F m : ℚ}, IsZee w2 j F k m → Mo k = m := fun hj => by simp only [Mo, hj.mF, Option.getD_some]
  have m1 : ∀ p ∈ ps, IsZee w2 x.e1 F1 p.1 (Mo p.1) ∧ IsZee w2 x.e2 F2 p.2 (Mo p.2) := by
    rintro ⟨a, b⟩ hp
    rw [hps, mem_product, v1, v2] at hp
    obtain ⟨⟨m1, h1⟩, m2, h2⟩ := hp
    simp only [hMo h1, hMo h2]
    exact ⟨h1, h2⟩
  have hloop := edgeLoop_ok (ok := fun a b => pairOk x.allowed (w2.zl a).term.mF (w2.zl b).term.mF) (mk := w2.newZTr W x)
    (ends := w2.zEnds) g m ps Z
    (by
      intro p hp
      obtain ⟨h1, h2⟩ := m1 p hp
      simp only [h1.mF, h2.mF, g]
      obtain ⟨b, hb⟩ := pairOk_some x.allowed (Mo p.1) (Mo p.2)
      rw [hb])
    (by
      intro p hp
      obtain ⟨h1, h2⟩ := m1 p hp
      exact newZTr_ok hW hr2.ready h1 h2)
  have hne : ∀ p ∈ ps.filter g, (w2.zEnds (m p)).1 ≠ (w2.zEnds (m p)).2 := by
    intro p hp
    obtain ⟨h1, h2⟩ := m1 p (List.mem_filter.1 hp).1
    exact zEnds_ne b3 hr2 h1 h2
  have hedge : ∀ key n y, ZEdge w2 key x i1 i2 J1 F1 J2 F2 n y ↔
      ∃ p ∈ ps.filter g, Rows.oth key (w2.zEnds (m p)) = some n ∧ y = m p := by
    intro key n y
    constructor
    · rintro ⟨a, b, m1, m2, h1, h2, h3, rfl, h4⟩
      refine ⟨(a, b), List.mem_filter.2 ⟨?_, ?_⟩, ?_, ?_⟩
      · rw [hps, mem_product, v1, v2]; exact ⟨⟨m1, h1⟩, m2, h2⟩
      · simp only [g, hMo h1, hMo h2, h3]
      · simp only [m, hMo h1, hMo h2]; exact h4
      · simp only [m, hMo h1, hMo h2]
    · rintro ⟨p, hp, h4, rfl⟩
      obtain ⟨hp1, hp2⟩ := List.mem_filter.1 hp
      obtain ⟨h1, h2⟩ := m1 p hp1
      refine ⟨p.1, p.2, Mo p.1, Mo p.2, h1, h2, ?_, rfl, h4⟩
      obtain ⟨b, hb⟩ := pairOk_some x.allowed (Mo p.1) (Mo p.2)
      simp only [g, hb] at hp2
      rw [hb, hp2]
  refine ⟨w2, Rows.addAll m (fun p => w2.zEnds (m p)) (ps.filter g) Z, ?_, fun hr => lazyZ_reach (lazyZ_reach hr a1) b1, a2.trans b2, b3, k1, b4, ?_, ?_⟩
  · unfold zeeEdges
    rw [PyM.bind_ok a1, PyM.bind_ok b1, PyM.bind_ok (show PyM.get w2 = (w2, .ok w2) from rfl)]
    unfold PyM.lift
    rw [hloop]
  · intro key hk
    exact Rows.addAll_nodup _ _ key _ _ hne hk
  · intro key n
    rcases Rows.addAll_get m (fun p => w2.zEnds (m p)) key n (ps.filter g) Z hne with ⟨p, hp, h1, h2⟩ | ⟨h1, h2⟩
    · exact .inl ⟨m p, (hedge key n _).2 ⟨p, hp, h1, rfl⟩, h2⟩
    · refine .inr ⟨fun y hy => ?_, h2⟩
      obtain ⟨p, hp, h3, -⟩ := (hedge key n y).1 hy
      exact h1 p hp h3

/-- Some numbers make `y` the Zeeman transition of `x` from `key` to `n`. -/
def ZEdge' (w : World) (key : Str) (x : HTr) (n : Str) (y : ZTr) : Prop :=
  ∃ i1 i2 J1 F1 J2 F2, ZApart w x i1 i2 J1 F1 J2 F2 ∧ ZEdge w key x i1 i2 J1 F1 J2 F2 n y

theorem LFrame.mkZTr {w w' : World} (h : LFrame w w') (x : HTr) {i1 i2 a b : Nat} (ha : a < w.nzl) (hb : b < w.nzl) (J1 F1 m1 J2 F2 m2 : ℚ) :
    w'.mkZTr x i1 i2 a b J1 F1 m1 J2 F2 m2 = w.mkZTr x i1 i2 a b J1 F1 m1 J2 F2 m2 := by
  unfold World.mkZTr World.zeeE
  simp only [h.B, h.hypE, h.zl a ha, h.zl b hb]

theorem LFrame.zFull {w w' : World} (h : LFrame w w') {k : Nat} (hk : k < w.nzl) : w'.zFull k = w.zFull k := by
  unfold World.zFull
  rw [h.zl k hk]

/-- Edges between populated levels are the same afterwards. -/
theorem PopKeep.zedge {w w' : World} (h : PopKeep w w') (hi : SubInv w) {x : HTr} {i1 i2 : Nat} {J1 F1 J2 F2 : ℚ}
    (hr : ZApart w x i1 i2 J1 F1 J2 F2) (h1 : (w.hf x.e1).subs ≠ []) (h2 : (w.hf x.e2).subs ≠ []) (key n : Str) (y : ZTr) :
    ZEdge' w' key x n y ↔ ZEdge w key x i1 i2 J1 F1 J2 F2 n y := by
  have ends : ∀ {a b : Nat} {m1 m2 : ℚ}, a < w.nzl → b < w.nzl →
      w'.zEnds (w.mkZTr x i1 i2 a b J1 F1 m1 J2 F2 m2) = w.zEnds (w.mkZTr x i1 i2 a b J1 F1 m1 J2 F2 m2) := by
    intro a b m1 m2 ha hb
    unfold zEnds World.mkZTr
    simp only
    split <;> rw [h.frame.zFull ha, h.frame.zFull hb]
  have hr' := hr.keep h
  constructor
  · rintro ⟨k1, k2, L1, G1, L2, G2, hk, a, b, m1, m2, p1, p2, p3, rfl, p5⟩
    obtain ⟨rfl, rfl, rfl, rfl, rfl, rfl⟩ := hr'.unique hk
    rw [h.zee hi hr.h1.lt h1 hr.h1.F] at p1
    rw [h.zee hi hr.h2.lt h2 hr.h2.F] at p2
    rw [h.frame.mkZTr x p1.lt p2.lt] at p5 ⊢
    rw [ends p1.lt p2.lt] at p5
    exact ⟨a, b, m1, m2, p1, p2, p3, rfl, p5⟩
  · rintro ⟨a, b, m1, m2, p1, p2, p3, rfl, p5⟩
    refine ⟨i1, i2, J1, F1, J2, F2, hr', a, b, m1, m2, (h.zee hi hr.h1.lt h1 hr.h1.F).2 p1, (h.zee hi hr.h2.lt h2 hr.h2.F).2 p2, p3, ?_, ?_⟩
    · rw [h.frame.mkZTr x p1.lt p2.lt]
    · rw [ends p1.lt p2.lt]; exact p5

theorem zeeEdgesAll_spec {W : Wig} (hW : W.Good) : ∀ (xs : List HTr) (w : World) (Z : Rows ZTr), SubInv w →
    (∀ x ∈ xs, ∃ i1 i2 J1 F1 J2 F2, ZApart w x i1 i2 J1 F1 J2 F2) →
    ∃ w' Z', zeeEdgesAll W xs Z w = (w', .ok Z') ∧ (Reachable w → Reachable w') ∧ PopKeep w w' ∧ SubInv w' ∧
      (∀ x ∈ xs, (w'.hf x.e1).subs ≠ [] ∧ (w'.hf x.e2).subs ≠ []) ∧
      (∀ key, (Z key).keys.Nodup → (Z' key).keys.Nodup) ∧
      ∀ key n, (∃ x ∈ xs, ∃ y, ZEdge' w' key x n y ∧ (Z' key).get? n = some y) ∨
        ((∀ x ∈ xs, ∀ y, ¬ZEdge' w' key x n y) ∧ (Z' key).get? n = (Z key).get? n)
  | [], w, Z, hi, _ => ⟨w, Z, rfl, id, .refl w, hi, by simp, fun _ h => h, fun _ _ => .inr ⟨by simp, rfl⟩⟩
  | x :: xs, w, Z, hi, hr => by
    obtain ⟨i1, i2, J1, F1, J2, F2, hr0⟩ := hr x (by simp)
    obtain ⟨w1, Z1, a1, ra, a2, a3, a4, a5, a6, a7⟩ := zeeEdges_spec hW hi hr0 Z
    obtain ⟨w2, Z2, b1, rb, b2, b3, b4, b5, b6⟩ := zeeEdgesAll_spec hW xs w1 Z1 a3 (fun u hu => by
      obtain ⟨k1, k2, L1, G1, L2, G2, h1⟩ := hr u (by simp [hu])
      exact ⟨k1, k2, L1, G1, L2, G2, h1.keep a2⟩)
    have hr1 := hr0.keep a2
    refine ⟨w2, Z2, ?_, fun hr => rb (ra hr), a2.trans b2, b3, ?_, fun key hk => b5 key (a6 key hk), fun key n => ?_⟩
    · unfold zeeEdgesAll
      rw [PyM.bind_ok a1, b1]
    · intro u hu
      rcases List.mem_cons.1 hu with rfl | hu
      · rw [b2.hf _ hr1.h1.lt a4, b2.hf _ hr1.h2.lt a5]; exact ⟨a4, a5⟩
      · exact b4 u hu
    · rcases b6 key n with ⟨u, hu, y, h1, h2⟩ | ⟨h1, h2⟩
      · exact .inl ⟨u, by simp [hu], y, h1, h2⟩
      · rcases a7 key n with ⟨y, h3, h4⟩ | ⟨h3, h4⟩
        · refine .inl ⟨x, by simp, y, (b2.zedge a3 hr1 a4 a5 key n y).2 h3, ?_⟩
          rw [h2, h4]
        · refine .inr ⟨?_, by rw [h2, h4]⟩
          intro u hu y hy
          rcases List.mem_cons.1 hu with rfl | hu
          · exact h3 y ((b2.zedge a3 hr1 a4 a5 key n y).1 hy)
          · exact h1 u hu y hy

end World
end AtomTk
