import Verif.Props.TransKeys
import Verif.Props.GravityZ

/-! # C79: the first lookup of a subtransition by the full names of its ends -/

namespace AtomTk
open Util World Strengths

theorem coupled_swap {al : Types} {I J F J' F' : ℚ} (h : Coupled al I J F J' F') : Coupled al I J' F' J F := by
  unfold Coupled at *
  rw [six_swap J F J' F' I 1, six_swap J F J' F' I 2] at h
  exact h

/-- The pair with the two values of F exchanged is not a line of the transition as well. -/
def NoTwin (al : Types) (I J F J' F' : ℚ) : Prop := F = F' ∨ ¬(F' ∈ hfFs I J ∧ F ∈ hfFs I J' ∧ Coupled al I J F' J' F)

/-- `transition[(F, F')]` on a transition whose subtransitions were never asked for. -/
theorem fresh_item {W : Wig} (hW : W.Good) {w : World} (hr : Reachable w) {t : Nat} {J J' F F' : ℚ} (hs : SubReady w t J J')
    (hF : F ∈ hfFs w.I J) (hF' : F' ∈ hfFs w.I J') (hal : ¬((w.tr t).allowed.2.1 = true ∧ (w.tr t).allowed.2.2 = true) ∨ |F - F'| ≤ 1)
    (hc : Coupled (w.tr t).allowed w.I J F J' F') :
    ((∀ G ∈ hfFs w.I J, ∀ G' ∈ hfFs w.I J', w.hypE (w.tr t).e1 J G < w.hypE (w.tr t).e2 J' G') →
      NoTwin (w.tr t).allowed w.I J F J' F' →
      ∃ w' x, hItem W t [] (fKey F, fKey F') w = (w', .ok x) ∧ IsHyp w' (w.tr t).e1 J x.lower F ∧ IsHyp w' (w.tr t).e2 J' x.upper F' ∧
        x.parent = t) ∧
    ((∀ G ∈ hfFs w.I J, ∀ G' ∈ hfFs w.I J', w.hypE (w.tr t).e2 J' G' < w.hypE (w.tr t).e1 J G) →
      NoTwin (w.tr t).allowed w.I J F J' F' →
      ∃ w' x, hItem W t [] (fKey F', fKey F) w = (w', .ok x) ∧ IsHyp w' (w.tr t).e2 J' x.lower F' ∧ IsHyp w' (w.tr t).e1 J x.upper F ∧
        x.parent = t) := by
  obtain ⟨w', d, h1, h2, h3, h4, h5, h6, h7, h8, h9⟩ := hSubs_spec hW hr.subInv hs
  obtain ⟨a, ha⟩ := hyp_all h3 h4.hJ1 h4.hI h4.s1 h4.F1 h6 (F := F) (by rw [h2.I]; exact hF)
  obtain ⟨b, hb⟩ := hyp_all h3 h4.hJ2 h4.hI h4.s2 h4.F2 h7 (F := F') (by rw [h2.I]; exact hF')
  have o := pairOk_coupled (hfFs_spin hs.hI hs.s1 hF).isHalfInt (hfFs_spin hs.hI hs.s2 hF').isHalfInt hal hc
  have hc' : (w'.mkHTr t a b J F J' F').allowed.any = true := by
    refine (coupled_iff _ _ _ _ _ _).2 ?_
    rw [h2.tr, h2.I]; exact hc
  obtain ⟨-, h10⟩ := h9 a b F F' ha hb (by rw [h2.tr]; exact o) hc'
  have hit : ∀ item, hItem W t [] item w = (w', subItem d item) := by
    intro item
    unfold hItem
    rw [PyM.bind_ok h1]
    rfl
  have twin : ∀ y G G' a' b', IsHyp w' (w'.tr t).e1 J a' G → IsHyp w' (w'.tr t).e2 J' b' G' → y = w'.mkHTr t a' b' J G J' G' →
      y.allowed.any = true → fKey G = fKey F' → fKey G' = fKey F → NoTwin (w.tr t).allowed w.I J F J' F' → F = F' := by
    intro y G G' a' b' i1 i2 hy hany k1 k2 hn
    rcases hn with hn | hn
    · exact hn
    exfalso
    apply hn
    have m1 := i1.mem; have m2 := i2.mem
    rw [h2.I] at m1 m2
    obtain rfl := fKey_inj (hfFs_spin hs.hI hs.s1 m1).isHalfInt (hfFs_spin hs.hI hs.s2 hF').isHalfInt k1
    obtain rfl := fKey_inj (hfFs_spin hs.hI hs.s2 m2).isHalfInt (hfFs_spin hs.hI hs.s1 hF).isHalfInt k2
    refine ⟨m1, m2, ?_⟩
    rw [hy] at hany
    have := (coupled_iff _ _ _ _ _ _).1 hany
    rw [h2.tr, h2.I] at this
    exact this
  constructor
  · intro hsep hn
    have hsep' : Separated w' t J J' := Separated.frame (.inl hsep) h2
    have h11 := h10 (fun a' b' G G' g1 g2 hk => sep_inj h4.hI h4.s1 h4.s2 hsep' ha hb g1 g2 hk)
    have up : ∀ {a' b' G G'}, IsHyp w' (w'.tr t).e1 J a' G → IsHyp w' (w'.tr t).e2 J' b' G' →
        w'.hypE (w'.tr t).e2 J' G' > w'.hypE (w'.tr t).e1 J G := by
      intro a' b' G G' i1 i2
      have m1 := i1.mem; have m2 := i2.mem
      rw [h2.I] at m1 m2
      rw [h2.hypE, h2.hypE, h2.tr]
      exact hsep _ m1 _ m2
    rw [hKey_of ha hb, if_pos (up ha hb)] at h11
    refine ⟨w', w'.mkHTr t a b J F J' F', ?_, ?_, ?_, rfl⟩
    · rw [hit]
      congr 1
      unfold subItem
      simp only
      cases hg : d.get? (fKey F', fKey F) with
      | none => exact Dict.getE_ok.2 h11
      | some y =>
        obtain ⟨a', b', G, G', i1, i2, -, hy, hany, hk⟩ := h8 _ _ hg
        rw [hy, hKey_of i1 i2, if_pos (up i1 i2), Prod.mk.injEq] at hk
        have e := twin y G G' a' b' i1 i2 hy hany hk.1 hk.2 hn
        rw [← e] at hg h11
        rw [hg] at h11
        rw [← e, Option.some.inj h11]
    · have : (w'.mkHTr t a b J F J' F').lower = a := by
        unfold mkHTr; simp only; rw [if_pos (up ha hb)]
      rw [this, ← h2.tr]; exact ha
    · have : (w'.mkHTr t a b J F J' F').upper = b := by
        unfold mkHTr; simp only; rw [if_pos (up ha hb)]
      rw [this, ← h2.tr]; exact hb
  · intro hsep hn
    have hsep' : Separated w' t J J' := Separated.frame (.inr fun G hG G' hG' => (hsep G hG G' hG').le) h2
    have h11 := h10 (fun a' b' G G' g1 g2 hk => sep_inj h4.hI h4.s1 h4.s2 hsep' ha hb g1 g2 hk)
    have dn : ∀ {a' b' G G'}, IsHyp w' (w'.tr t).e1 J a' G → IsHyp w' (w'.tr t).e2 J' b' G' →
        ¬w'.hypE (w'.tr t).e2 J' G' > w'.hypE (w'.tr t).e1 J G := by
      intro a' b' G G' i1 i2
      have m1 := i1.mem; have m2 := i2.mem
      rw [h2.I] at m1 m2
      rw [h2.hypE, h2.hypE, h2.tr]
      exact not_lt.2 (hsep _ m1 _ m2).le
    rw [hKey_of ha hb, if_neg (dn ha hb)] at h11
    refine ⟨w', w'.mkHTr t a b J F J' F', ?_, ?_, ?_, rfl⟩
    · rw [hit]
      congr 1
      unfold subItem
      simp only
      cases hg : d.get? (fKey F, fKey F') with
      | none => exact Dict.getE_ok.2 h11
      | some y =>
        obtain ⟨a', b', G, G', i1, i2, -, hy, hany, hk⟩ := h8 _ _ hg
        rw [hy, hKey_of i1 i2, if_neg (dn i1 i2), Prod.mk.injEq] at hk
        have e := twin y G G' a' b' i1 i2 hy hany hk.2 hk.1 hn
        rw [← e] at hg h11
        rw [hg] at h11
        rw [← e, Option.some.inj h11]
    · have : (w'.mkHTr t a b J F J' F').lower = b := by
        unfold mkHTr; simp only; rw [if_neg (dn ha hb)]
      rw [this, ← h2.tr]; exact hb
    · have : (w'.mkHTr t a b J F J' F').upper = a := by
        unfold mkHTr; simp only; rw [if_neg (dn ha hb)]
      rw [this, ← h2.tr]; exact ha

/-- Looking up a hyperfine level by its name: the object has the parent, J and F of the name, also after later lookups. -/
theorem hyp_found {w : World} (hr : Reachable w) (hI : IsSpin w.I) {i : Nat} {J F : ℚ} (hf : Findable w i J) (hF : F ∈ hfFs w.I J)
    (ha : w.lalias.get? (hypText (w.lname i) F) = none) :
    ∃ w' j, levelsGet (hypText (w.lname i) F) w = (w', .ok (.hyp j)) ∧ Reachable w' ∧ LFrame w w' ∧
      ∀ w'', LFrame w' w'' → w''.hHz j = .ok (w.hypE i J F) := by
  have hFs := hfFs_spin hI hf.spin hF
  obtain ⟨w', j, h1, h2, -⟩ := lvItem_ok hr.keysInv hI (hr.wf.node _ _ hf.reg).2.1 hf.hJ hf.spin hf.hF hF
  have hg := levelsGet_hyp hr.wf.gok.nodup hf.clean hf.reg hFs.isHalfInt ha
  rw [h1] at hg
  obtain ⟨r', l'⟩ := levelsGet_reach hr hg
  obtain ⟨f', -, -⟩ := hf.keep l'
  obtain ⟨F0, hh⟩ := hyp_of_get r'.subInv f'.hJ f'.hF h2
  obtain ⟨-, -, F1, k1, k2⟩ := r'.subsInv.hfOf i _ j h2
  refine ⟨w', j, hg, r', l', fun w'' l'' => ?_⟩
  have e1 : (w'.hf j).term.F = some F := by
    have m0 := hh.mem
    rw [l'.I] at m0
    have k3 : (w'.hf j).term.F = some F1 := by rw [k2]; simp [Term.withF, f'.hF]
    have : F0 = F1 := by rw [hh.F] at k3; exact Option.some.inj k3
    subst this
    rw [fKey_inj hFs.isHalfInt (hfFs_spin hI hf.spin m0).isHalfInt k1]
    exact hh.F
  obtain ⟨s, hs⟩ := l''.hf j hh.lt
  rw [hyp_energy (w := w'') (i := i) (J := J) (F := F) (by rw [hs]; exact hh.J) (by rw [hs]; exact e1) (by rw [hs]; exact hh.par),
    l''.hypE, l'.hypE]

/-- C79 from beginning to end: `atom.transitions[(name1 + ' F=' + F, name2 + ' F=' + F')]`, in either order, on an atom in which no
subtransition was ever asked for, gives the subtransition between exactly these two hyperfine levels.  For levels that do not
overlap, pairs the selection rules allow (not `|F - F'| = 2` where M1 and E2 are both allowed, see C32) and without a twin with
the two F exchanged (see C30). -/
theorem C79_fresh_partial {W : Wig} (hW : W.Good) {w : World} (hr : Reachable w) {ia ib t : Nat} {Ja Jb F F' : ℚ}
    (hp : Pair w ia ib Ja Jb) (ht : w.g.edges.get? (w.lname ia, w.lname ib) = some t)
    (hends : ((w.tr t).e1 = ia ∧ (w.tr t).e2 = ib) ∨ ((w.tr t).e1 = ib ∧ (w.tr t).e2 = ia)) (hle : w.eHz ia ≤ w.eHz ib)
    (hsep : ∀ G ∈ hfFs w.I Ja, ∀ G' ∈ hfFs w.I Jb, w.hypE ia Ja G < w.hypE ib Jb G')
    (hF : F ∈ hfFs w.I Ja) (hF' : F' ∈ hfFs w.I Jb)
    (ha : w.lalias.get? (hypText (w.lname ia) F) = none) (hb : w.lalias.get? (hypText (w.lname ib) F') = none)
    (hal : ¬((w.tr t).allowed.2.1 = true ∧ (w.tr t).allowed.2.2 = true) ∨ |F - F'| ≤ 1)
    (hc : Coupled (w.tr t).allowed w.I Ja F Jb F') (hn : NoTwin (w.tr t).allowed w.I Ja F Jb F') :
    (∃ w' x, transLookup W .empty (hypText (w.lname ia) F) (hypText (w.lname ib) F') w = (w', .ok (.hyp x)) ∧
      IsHyp w' ia Ja x.lower F ∧ IsHyp w' ib Jb x.upper F' ∧ x.parent = t) ∧
    (∃ w' x, transLookup W .empty (hypText (w.lname ib) F') (hypText (w.lname ia) F) w = (w', .ok (.hyp x)) ∧
      IsHyp w' ia Ja x.lower F ∧ IsHyp w' ib Jb x.upper F' ∧ x.parent = t) := by
  have step : ∀ w2, Reachable w2 → LFrame w w2 → ∃ w' x, stepH W .empty (w.lname ia) (w.lname ib) (fKey F, fKey F') w2 = (w', .ok (.hyp x)) ∧
      IsHyp w' ia Ja x.lower F ∧ IsHyp w' ib Jb x.upper F' ∧ x.parent = t := by
    intro w2 r2 l2
    obtain ⟨fa2, na2, ea2⟩ := hp.fa.keep l2
    obtain ⟨fb2, nb2, eb2⟩ := hp.fb.keep l2
    have hg := transGet_le r2 (fa2.plain (by rw [na2, l2.lalias]; exact hp.na)) (fb2.plain (by rw [nb2, l2.lalias]; exact hp.nb))
      fa2.reg fb2.reg (by rw [ea2, eb2]; exact hle)
    rw [na2, nb2, l2.g, Dict.getE_ok.2 ht] at hg
    have ina := (r2.wf.node _ _ fa2.reg).2.1
    have inb := (r2.wf.node _ _ fb2.reg).2.1
    have hit : ∃ w' x, hItem W t [] (fKey F, fKey F') w2 = (w', .ok x) ∧ IsHyp w' ia Ja x.lower F ∧ IsHyp w' ib Jb x.upper F' ∧
        x.parent = t := by
      have hI2 : IsSpin w2.I := by rw [l2.I]; exact hp.spin
      rcases hends with ⟨q1, q2⟩ | ⟨q1, q2⟩
      · have hs : SubReady w2 t Ja Jb := by
          refine ⟨hI2, ?_, ?_, ?_, ?_, hp.fa.spin, hp.fb.spin, ?_, ?_⟩ <;> rw [l2.tr] <;> first | rw [q1] | rw [q2]
          exacts [ina, inb, fa2.hJ, fb2.hJ, fa2.hF, fb2.hF]
        have := (fresh_item hW r2 hs (F := F) (F' := F') (by rw [l2.I]; exact hF) (by rw [l2.I]; exact hF')
          (by rw [l2.tr]; exact hal) (by rw [l2.tr, l2.I]; exact hc)).1
          (by rw [l2.tr, l2.I, q1, q2]; simp only [l2.hypE]; exact hsep) (by rw [l2.tr, l2.I]; exact hn)
        rw [l2.tr, q1, q2] at this
        exact this
      · have hs : SubReady w2 t Jb Ja := by
          refine ⟨hI2, ?_, ?_, ?_, ?_, hp.fb.spin, hp.fa.spin, ?_, ?_⟩ <;> rw [l2.tr] <;> first | rw [q1] | rw [q2]
          exacts [inb, ina, fb2.hJ, fa2.hJ, fb2.hF, fa2.hF]
        have hn' : NoTwin (w2.tr t).allowed w2.I Jb F' Ja F := by
          rw [l2.tr, l2.I]
          rcases hn with hn | hn
          · exact .inl hn.symm
          · exact .inr fun h => hn ⟨h.2.1, h.1, coupled_swap h.2.2⟩
        have := (fresh_item hW r2 hs (F := F') (F' := F) (by rw [l2.I]; exact hF') (by rw [l2.I]; exact hF)
          (by rw [l2.tr, abs_sub_comm]; exact hal) (by rw [l2.tr, l2.I]; exact coupled_swap hc)).2
          (by rw [l2.tr, l2.I, q1, q2]; simp only [l2.hypE]; exact fun G hG G' hG' => hsep G' hG' G hG) hn'
        rw [l2.tr, q1, q2] at this
        exact this
    obtain ⟨w', x, e1, e2, e3, e4⟩ := hit
    refine ⟨w', x, ?_, e2, e3, e4⟩
    unfold stepH
    rw [PyM.bind_ok (show transGet (w.lname ia) (w.lname ib) w2 = (w2, .ok t) from hg)]
    show (hItem W t [] (fKey F, fKey F') >>= fun x => pure (TRef.hyp x)) w2 = _
    rw [PyM.bind_ok e1]
    rfl
  have lt := hsep F hF F' hF'
  constructor
  · obtain ⟨w1, j, g1, r1, l1, en1⟩ := hyp_found hr hp.spin hp.fa hF ha
    obtain ⟨fb1, nb1, -⟩ := hp.fb.keep l1
    obtain ⟨w2, j', g2, r2, l2, en2⟩ := hyp_found r1 (by rw [l1.I]; exact hp.spin) fb1 (F := F') (by rw [l1.I]; exact hF')
      (by rw [nb1, l1.lalias]; exact hb)
    rw [nb1] at g2
    rw [(C79_hyperfine_partial W .empty hr hp hF hF' hle).1 g1 g2 (en1 w2 l2) (en2 w2 (LFrame.refl _)) (by rw [l1.hypE]; exact lt.le)]
    exact step w2 r2 (LFrame.trans _ _ _ l1 l2)
  · obtain ⟨w1, j', g1, r1, l1, en1⟩ := hyp_found hr hp.spin hp.fb hF' hb
    obtain ⟨fa1, na1, -⟩ := hp.fa.keep l1
    obtain ⟨w2, j, g2, r2, l2, en2⟩ := hyp_found r1 (by rw [l1.I]; exact hp.spin) fa1 (F := F) (by rw [l1.I]; exact hF)
      (by rw [na1, l1.lalias]; exact ha)
    rw [na1] at g2
    rw [(C79_hyperfine_partial W .empty hr hp hF hF' hle).2 g1 g2 (en2 w2 (LFrame.refl _)) (en1 w2 l2) (by rw [l1.hypE]; exact lt)]
    exact step w2 r2 (LFrame.trans _ _ _ l1 l2)

/-- The hypotheses of `C79_fresh_partial` hold for F = 1 to F' = 1 in the atom `apartAtom`. -/
example : ∃ w' x, transLookup exactWig .empty "e 2P*1/2 F=1".toList "g 2S1/2 F=1".toList apartAtom = (w', .ok (.hyp x)) ∧
    IsHyp w' 0 (1/2) x.lower 1 ∧ IsHyp w' 1 (1/2) x.upper 1 ∧ x.parent = 0 := by
  have e1 : (apartAtom.tr 0).e1 = 0 := by decide +kernel
  have e2 : (apartAtom.tr 0).e2 = 1 := by decide +kernel
  have hp := apartAtom_pair
  rw [e1, e2] at hp
  have := (C79_fresh_partial exactWig_good apartAtom_reachable hp (t := 0) (F := 1) (F' := 1) (by decide +kernel) (.inl ⟨e1, e2⟩)
    (by decide +kernel) (by decide +kernel) (by decide +kernel) (by decide +kernel) (by decide +kernel) (by decide +kernel)
    (.inl (by decide +kernel)) apartAtom_coupled (.inl rfl)).2
  have n1 : hypText (apartAtom.lname 1) 1 = "e 2P*1/2 F=1".toList := by decide +kernel
  have n0 : hypText (apartAtom.lname 0) 1 = "g 2S1/2 F=1".toList := by decide +kernel
  rw [n1, n0] at this
  exact this

end AtomTk
