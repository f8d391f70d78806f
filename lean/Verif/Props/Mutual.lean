import Verif.Props.LinkedZ

/-!
# C185: links between sublevels are mutual
-/

namespace AtomTk
open Util World Strengths

theorem Link.symm {w : World} (hr : Reachable w) {i j t : Nat} {J F J' F' : ℚ} (hi : HfReady w i J F)
    (h : Link w i F (w.lname j) t j J' F') : Link w j F' (w.lname i) t i J F :=
  ⟨Ne.symm h.ne, by rw [hr.wf.gok.symm]; exact h.adj, hi.lvl.reg, hi.lvl.hJ, hi.mem, h.near.symm⟩

theorem listed_link {w : World} {i j : Nat} {J F J' F' : ℚ} (hi : HfReady w i J F) (hj : HfReady w j J' F') :
    (∃ m t j1 J1 F1, Link w i F m t j1 J1 F1 ∧ hypText (w.lname j) F' = hypText m F1) → ∃ t, Link w i F (w.lname j) t j J' F' := by
  rintro ⟨m, t, j1, J1, F1, h1, h2⟩
  obtain ⟨j2, J2, g1, g2⟩ := hi.nbr m t h1.ne h1.adj
  obtain rfl : j2 = j1 := Option.some.inj (g1.symm.trans h1.lev)
  obtain rfl : J2 = J1 := Option.some.inj (g2.hJ.symm.trans h1.J)
  have s1 := (hfFs_spin hi.hI g2.spin h1.mem).isHalfInt
  have s2 := (hfFs_spin hj.hI hj.lvl.spin hj.mem).isHalfInt
  obtain ⟨rfl, rfl⟩ := hypText_inj s2 s1 h2
  obtain rfl : j = j2 := Option.some.inj (hj.lvl.reg.symm.trans h1.lev)
  obtain rfl : J' = J2 := Option.some.inj (hj.lvl.hJ.symm.trans h1.J)
  exact ⟨t, h1⟩

/-- C185: of two hyperfine levels each is listed for the other, or neither. -/
theorem C185_mutual_hyperfine {W : Wig} (hW : W.Good) {w : World} (hr : Reachable w) {i j : Nat} {J F J' F' : ℚ} (hi : HfReady w i J F) (hj : HfReady w j J' F')
    {H K : Rows HTr} (hH : H.Fits w i F) (hK : K.Fits w j F') :
    ∃ wa wb Ha Hb da db, linkedHyp W H (hypText (w.lname i) F) w = (wa, .ok (Ha, da)) ∧ linkedHyp W K (hypText (w.lname j) F') w = (wb, .ok (Hb, db)) ∧
      (hypText (w.lname j) F' ∈ da.keys ↔ hypText (w.lname i) F ∈ db.keys) := by
  obtain ⟨wa, Ha, da, a0, h1, -, -, -, h2, -⟩ := C100_listed_partial hW hr hi hH
  obtain ⟨wb, Hb, db, b0, g1, -, -, -, g2, -⟩ := C100_listed_partial hW hr hj hK
  refine ⟨wa, wb, Ha, Hb, da, db, h1, g1, ?_⟩
  rw [h2, g2]
  constructor
  · intro h
    obtain ⟨t, ht⟩ := listed_link hi hj h
    exact ⟨_, t, i, J, F, ht.symm hr hi, rfl⟩
  · intro h
    obtain ⟨t, ht⟩ := listed_link hj hi h
    exact ⟨_, t, j, J', F', ht.symm hr hj, rfl⟩

theorem zlisted_link {w : World} {i j : Nat} {J F m J' F' m' : ℚ} (hi : ZeReady w i J F m) (hj : ZeReady w j J' F' m') :
    (∃ u t j1 J1 F1 m1, ZLink w i J F m u t j1 J1 F1 m1 ∧ zeeText (w.lname j) F' m' = zeeText u F1 m1) →
      ∃ t, ZLink w i J F m (w.lname j) t j J' F' m' := by
  rintro ⟨u, t, j1, J1, F1, m1, h1, h2⟩
  obtain ⟨j2, J2, g1, g2⟩ := hi.hyp.nbr u t h1.link.ne h1.link.adj
  obtain rfl : j2 = j1 := Option.some.inj (g1.symm.trans h1.link.lev)
  obtain rfl : J2 = J1 := Option.some.inj (g2.hJ.symm.trans h1.link.J)
  have s1 := hfFs_spin hi.hyp.hI g2.spin h1.link.mem
  have s2 := hfFs_spin hj.hyp.hI hj.hyp.lvl.spin hj.hyp.mem
  obtain ⟨rfl, rfl, rfl⟩ := zeeText_inj s2.isHalfInt s1.isHalfInt (zMs_half s2 hj.mem) (zMs_half s1 h1.mem) h2
  obtain rfl : j = j2 := Option.some.inj (hj.hyp.lvl.reg.symm.trans h1.link.lev)
  obtain rfl : J' = J2 := Option.some.inj (hj.hyp.lvl.hJ.symm.trans h1.link.J)
  exact ⟨t, h1⟩

theorem ZLink.symm {w : World} (hr : Reachable w) {i j t : Nat} {J F m J' F' m' : ℚ} (hi : ZeReady w i J F m)
    (h : ZLink w i J F m (w.lname j) t j J' F' m') : ZLink w j J' F' m' (w.lname i) t i J F m :=
  ⟨h.link.symm hr hi.hyp, hi.mem, by rw [hTypes_symm]; exact h.near.symm⟩

/-- C185: of two Zeeman levels each is listed for the other, or neither. -/
theorem C185_mutual_zeeman {W : Wig} (hW : W.Good) {w : World} (hr : Reachable w) {i j : Nat} {J F m J' F' m' : ℚ} (hi : ZeReady w i J F m)
    (hj : ZeReady w j J' F' m') {H K : Rows HTr} (hH : H.Fits w i F) (hK : K.Fits w j F') {Z Y : Rows ZTr} (hZ : Z.ZFits w i J F m)
    (hY : Y.ZFits w j J' F' m') :
    ∃ wa wb ra rb da db, linkedZee W H Z (zeeText (w.lname i) F m) w = (wa, .ok (ra, da)) ∧
      linkedZee W K Y (zeeText (w.lname j) F' m') w = (wb, .ok (rb, db)) ∧
      (zeeText (w.lname j) F' m' ∈ da.keys ↔ zeeText (w.lname i) F m ∈ db.keys) := by
  obtain ⟨wa, Ha, Za, da, a0, k0, h1, -, -, -, -, h2, -⟩ := C107_listed_partial hW hr hi hH hZ
  obtain ⟨wb, Hb, Zb, db, b0, l0, g1, -, -, -, -, g2, -⟩ := C107_listed_partial hW hr hj hK hY
  refine ⟨wa, wb, (Ha, Za), (Hb, Zb), da, db, h1, g1, ?_⟩
  rw [h2, g2]
  constructor
  · intro h
    obtain ⟨t, ht⟩ := zlisted_link hi hj h
    exact ⟨_, t, i, J, F, m, ht.symm hr hi, rfl⟩
  · intro h
    obtain ⟨t, ht⟩ := zlisted_link hj hi h
    exact ⟨_, t, j, J', F', m', ht.symm hr hj, rfl⟩

theorem oneAtom_hf1 : HfReady oneAtom 1 1 1 where
  hI := ⟨2, by decide +kernel⟩
  lvl := ⟨by decide +kernel, by decide +kernel, by decide +kernel, ⟨2, by norm_num⟩, by decide +kernel, by decide +kernel⟩
  mem := by decide +kernel
  ali := by decide +kernel
  sub := by decide +kernel
  nbr := by
    intro n t hn ha
    obtain ⟨rfl, ⟨-, rfl⟩ | ⟨-, rfl⟩⟩ := two_nbr oneAtom_reachable (by decide +kernel) (by decide +kernel) (by decide +kernel) ha
    · exact absurd rfl hn
    · exact ⟨0, 1, by decide +kernel, by decide +kernel, by decide +kernel, by decide +kernel, ⟨2, by norm_num⟩, by decide +kernel, by decide +kernel⟩

theorem oneAtom_ze1 : ZeReady oneAtom 1 1 1 1 where
  hyp := oneAtom_hf1
  mem := by decide +kernel
  sub := by decide +kernel

theorem oneAtom_link : Link oneAtom 0 0 (oneAtom.lname 1) 0 1 1 1 where
  ne := by decide +kernel
  adj := by decide +kernel
  lev := by decide +kernel
  J := by decide +kernel
  mem := by decide +kernel
  near := by unfold Near; rw [oneAtom_types]; norm_num [Types.any]

/-- A pair of hyperfine levels that lists each other: F = 0 of the first level and F = 1 of the second. -/
example : ∃ wa wb Ha Hb da db, linkedHyp exactWig Rows.empty (hypText (oneAtom.lname 0) 0) oneAtom = (wa, .ok (Ha, da)) ∧
    linkedHyp exactWig Rows.empty (hypText (oneAtom.lname 1) 1) oneAtom = (wb, .ok (Hb, db)) ∧
    hypText (oneAtom.lname 1) 1 ∈ da.keys ∧ hypText (oneAtom.lname 0) 0 ∈ db.keys := by
  obtain ⟨wa, wb, Ha, Hb, da, db, h1, h2, h3⟩ := C185_mutual_hyperfine exactWig_good oneAtom_reachable oneAtom_hf oneAtom_hf1
    (Rows.empty_fits oneAtom 0 0) (Rows.empty_fits oneAtom 1 1)
  obtain ⟨wc, Hc, dc, a0, g1, -, -, -, g5, -⟩ := C100_listed_partial exactWig_good oneAtom_reachable oneAtom_hf (Rows.empty_fits oneAtom 0 0)
  obtain ⟨-, e⟩ := Prod.mk.inj (h1.symm.trans g1)
  obtain ⟨-, rfl⟩ := Prod.mk.inj (Except.ok.inj e)
  have : hypText (oneAtom.lname 1) 1 ∈ da.keys := (g5 _).2 ⟨_, 0, 1, 1, 1, oneAtom_link, rfl⟩
  exact ⟨wa, wb, Ha, Hb, da, db, h1, h2, this, h3.1 this⟩

/-- The hypotheses for two Zeeman levels of these. -/
example : ∃ wa wb ra rb da db, linkedZee exactWig Rows.empty Rows.empty (zeeText (oneAtom.lname 0) 0 0) oneAtom = (wa, .ok (ra, da)) ∧
    linkedZee exactWig Rows.empty Rows.empty (zeeText (oneAtom.lname 1) 1 1) oneAtom = (wb, .ok (rb, db)) ∧
    zeeText (oneAtom.lname 1) 1 1 ∈ da.keys ∧ zeeText (oneAtom.lname 0) 0 0 ∈ db.keys := by
  obtain ⟨wa, wb, ra, rb, da, db, h1, h2, h3⟩ := C185_mutual_zeeman exactWig_good oneAtom_reachable oneAtom_ze oneAtom_ze1
    (Rows.empty_fits oneAtom 0 0) (Rows.empty_fits oneAtom 1 1) (Rows.empty_zfits oneAtom 0 1 0 0) (Rows.empty_zfits oneAtom 1 1 1 1)
  obtain ⟨wc, Hc, Zc, dc, a0, k0, g1, -, -, -, -, g5, -⟩ := C107_listed_partial exactWig_good oneAtom_reachable oneAtom_ze
    (Rows.empty_fits oneAtom 0 0) (Rows.empty_zfits oneAtom 0 1 0 0)
  obtain ⟨-, e⟩ := Prod.mk.inj (h1.symm.trans g1)
  obtain ⟨-, rfl⟩ := Prod.mk.inj (Except.ok.inj e)
  have n : ZLink oneAtom 0 1 0 0 (oneAtom.lname 1) 0 1 1 1 1 := ⟨oneAtom_link, by decide +kernel, by unfold Near; intro _; split <;> norm_num⟩
  have : zeeText (oneAtom.lname 1) 1 1 ∈ da.keys := (g5 _).2 ⟨_, 0, 1, 1, 1, 1, n, rfl⟩
  exact ⟨wa, wb, ra, rb, da, db, h1, h2, this, h3.1 this⟩

end AtomTk
