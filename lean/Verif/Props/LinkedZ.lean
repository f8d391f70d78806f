import Verif.Proofs.LinkedZ
import Verif.Props.Linked

/-! # C107-C109: `linked_levels`, `state_lifetime` and `compute_branching_ratios` of Zeeman levels (atom.py:1086-1129) -/

namespace AtomTk
open Util World Strengths Racah

/-- The level named `n`, of number `j`, is linked to level `i` by the transition `t` and has a Zeeman level `(F', m')` that is near
`(F, m)`: the distance of the numbers m is bounded by the types of the hyperfine transition. -/
structure ZLink (w : World) (i : Nat) (J F m : ℚ) (n : Str) (t j : Nat) (J' F' m' : ℚ) : Prop where
  link : Link w i F n t j J' F'
  mem : m' ∈ zMs F'
  near : Near (hTypes (w.tr t).allowed w.I J F J' F') m m'

/-- As `HfReady`, for a Zeeman level. -/
structure ZeReady (w : World) (i : Nat) (J F m : ℚ) : Prop where
  hyp : HfReady w i J F
  mem : m ∈ zMs F
  sub : w.lalias.get? (zeeText (w.lname i) F m) = none

/-- The row of the Zeeman graph that the level may have beforehand. -/
def Rows.ZFits (Z : Rows ZTr) (w : World) (i : Nat) (J F m : ℚ) : Prop :=
  (Z (zeeText (w.lname i) F m)).keys.Nodup ∧
  ∀ n ∈ (Z (zeeText (w.lname i) F m)).keys, ∃ u t j J' F' m', ZLink w i J F m u t j J' F' m' ∧ n = zeeText u F' m'

theorem Rows.empty_zfits (w : World) (i : Nat) (J F m : ℚ) : (Rows.empty : Rows ZTr).ZFits w i J F m := by
  unfold Rows.ZFits Rows.empty
  simp [Dict.keys]

theorem Rows.Fits.frame {H : Rows HTr} {w w' : World} {i : Nat} {F : ℚ} (h : H.Fits w i F) (l : LFrame w w') : H.Fits w' i F := by
  unfold Rows.Fits at *
  rw [l.lname]
  refine ⟨h.1, fun n hn => ?_⟩
  obtain ⟨m, t, j, J', F', q1, q2⟩ := h.2 n hn
  exact ⟨m, t, j, J', F', (Link.frame l).2 q1, q2⟩

theorem ZLink.frame {w w' : World} {i t j : Nat} {n : Str} {J F m J' F' m' : ℚ} (l : LFrame w w') :
    ZLink w' i J F m n t j J' F' m' ↔ ZLink w i J F m n t j J' F' m' := by
  constructor
  · intro h
    have := h.near
    rw [l.tr, l.I] at this
    exact ⟨(Link.frame l).1 h.link, h.mem, this⟩
  · intro h
    exact ⟨(Link.frame l).2 h.link, h.mem, by rw [l.tr, l.I]; exact h.near⟩

theorem ZeReady.frame {w w' : World} {i : Nat} {J F m : ℚ} (h : ZeReady w i J F m) (l : LFrame w w') : ZeReady w' i J F m :=
  ⟨h.hyp.frame l, h.mem, by rw [l.lalias, l.lname]; exact h.sub⟩

theorem hTypes_symm (al : Types) (I J F J' F' : ℚ) : hTypes al I J' F' J F = hTypes al I J F J' F' := by
  unfold hTypes
  rw [six_swap J' F' J F I 1, six_swap J' F' J F I 2]

namespace World

theorem linkTr_allowed (w : World) (i t a b : Nat) (J F J' F' : ℚ) :
    (w.linkTr i t a b J F J' F').allowed = hTypes (w.tr t).allowed w.I J F J' F' := by
  unfold linkTr
  split
  · rfl
  · exact hTypes_symm _ _ _ _ _ _

theorem LFrame.linkTr {w w' : World} (l : LFrame w w') (i t a b : Nat) (J F J' F' : ℚ) :
    w'.linkTr i t a b J F J' F' = w.linkTr i t a b J F J' F' := by
  unfold World.linkTr
  rw [l.tr, l.mkHTr, l.mkHTr]

/-- The transition from the Zeeman level `a` of level `i` to the Zeeman level `c` of level `j`; `x` is its hyperfine transition. -/
noncomputable def zlinkTr (w : World) (x : HTr) (i t j a c : Nat) (J F m J' F' m' : ℚ) : ZTr :=
  if (w.tr t).e1 = i then w.mkZTr x i j a c J F m J' F' m' else w.mkZTr x j i c a J' F' m' J F m

end World

theorem oth_zEnds {w : World} {x : HTr} {i1 i2 a b : Nat} {J1 F1 m1 J2 F2 m2 : ℚ} {key n : Str} (h : w.zFull a ≠ w.zFull b) :
    Rows.oth key (w.zEnds (w.mkZTr x i1 i2 a b J1 F1 m1 J2 F2 m2)) = some n ↔
      (key = w.zFull a ∧ n = w.zFull b) ∨ (key = w.zFull b ∧ n = w.zFull a) := by
  unfold zEnds mkZTr
  simp only
  split
  · exact oth_pair h
  · rw [oth_pair h.symm, or_comm]

/-- Looking up a Zeeman level by name. -/
theorem levelsGet_zsub {w : World} (hr : Reachable w) {i : Nat} {J F m : ℚ} (h : ZeReady w i J F m) :
    ∃ w1 a0 k0, levelsGet (zeeText (w.lname i) F m) w = (w1, .ok (.zee k0)) ∧ Reachable w1 ∧ LFrame w w1 ∧ IsHyp w1 i J a0 F ∧
      IsZee w1 a0 F k0 m ∧ (∀ a k, IsHyp w i J a F → IsZee w a F k m → w1 = w ∧ k0 = k) := by
  have hFs := hfFs_spin h.hyp.hI h.hyp.lvl.spin h.hyp.mem
  have hmh := zMs_half hFs h.mem
  have hin := (hr.wf.node _ _ h.hyp.lvl.reg).2.1
  obtain ⟨w1, j, h1, h2, h3⟩ := lvItem_ok hr.keysInv h.hyp.hI hin h.hyp.lvl.hJ h.hyp.lvl.spin h.hyp.lvl.hF h.hyp.mem
  have get1 : levelsGet (hypText (w.lname i) F) w = (w1, .ok (.hyp j)) := by
    rw [levelsGet_hyp hr.wf.gok.nodup h.hyp.lvl.clean h.hyp.lvl.reg hFs.isHalfInt h.hyp.sub, h1]
  obtain ⟨w1', a0, g1, hr1, l1, p1, p2⟩ := levelsGet_sub hr h.hyp
  rw [get1] at g1
  simp only [Prod.mk.injEq, Except.ok.injEq, Ref.hyp.injEq] at g1
  obtain ⟨rfl, rfl⟩ := g1
  obtain ⟨w2, z, g1, g2, g3⟩ := hfItem_ok hr1.keysInv p1.J p1.F hFs h.mem
  have get2 : levelsGet (zeeText (w.lname i) F m) w = (w2, .ok (.zee z)) := by
    rw [levelsGet_zee hr.wf.gok.nodup h.hyp.lvl.reg hFs.isHalfInt hmh h.sub, PyM.bind_ok h1]
    show (hfItem j (mKey m) >>= fun k => pure (Ref.zee k)) w1 = _
    rw [PyM.bind_ok g1]; rfl
  obtain ⟨hr2, l2⟩ := levelsGet_reach hr get2
  have l12 : LFrame w1 w2 := by
    have := hfItem_frame j (mKey m) w1
    rwa [g1] at this
  have hlv := hfItem_lv j (mKey m) w1
  rw [g1] at hlv
  have q1 : IsHyp w2 i J j F := p1.carry l12 (by rw [hlv])
  have hk : (w2.hf j).subs.keys = (zMs F).map mKey := by
    rcases hr2.subInv.keys.z j J F q1.J q1.F hFs with h0 | h0
    · rw [h0] at g2; cases g2
    · exact h0
  obtain ⟨z', hz'⟩ := zee_all hr2.subInv q1.F hFs hk h.mem
  obtain rfl : z = z' := by
    have := hz'.get
    rw [g2] at this
    exact Option.some.inj this
  refine ⟨w2, j, z, get2, hr2, l2, q1, hz', fun a k ha hz => ?_⟩
  obtain rfl := p2 ha.pop
  obtain rfl := ha.unique p1
  obtain rfl := g3 hz.pop
  exact ⟨rfl, hz'.unique hz⟩

/-- The edges of one hyperfine transition at the node of a Zeeman level. -/
theorem zedge_link {w w2 : World} (hr : Reachable w) {i a0 k0 b : Nat} {J F m : ℚ} (h : ZeReady w i J F m) (l : LFrame w w2) (hi : SubInv w2)
    (h0 : IsHyp w2 i J a0 F) (hk0 : IsZee w2 a0 F k0 m) {u : Str} {t j : Nat} {J' F' : ℚ} (q : Link w i F u t j J' F')
    (hb : IsHyp w2 j J' b F') (n : Str) (y : ZTr) :
    ((∃ i1 i2 J1 F1 J2 F2, ZApart w2 (w2.linkTr i t a0 b J F J' F') i1 i2 J1 F1 J2 F2)) ∧
    (ZEdge' w2 (zeeText (w.lname i) F m) (w2.linkTr i t a0 b J F J' F') n y ↔
      ∃ m' c, ZLink w i J F m u t j J' F' m' ∧ n = zeeText u F' m' ∧ IsZee w2 b F' c m' ∧
        y = w2.zlinkTr (w2.linkTr i t a0 b J F J' F') i t j k0 c J F m J' F' m') := by
  obtain ⟨j', J'', hj', hf⟩ := h.hyp.nbr u t q.ne q.adj
  obtain rfl : j' = j := Option.some.inj (hj'.symm.trans q.lev)
  obtain rfl : J'' = J' := Option.some.inj (hf.hJ.symm.trans q.J)
  obtain ⟨e, e12⟩ := link_ends hr h.hyp.lvl.reg q.adj q.lev
  have f2 := hf.keep l
  have i2 := h.hyp.lvl.keep l
  have hne : w2.lname i ≠ w2.lname j' := by rw [f2.2.1, i2.2.1, e]; exact q.ne.symm
  have hij : j' ≠ i := by rintro rfl; exact hne rfl
  have hI2 : IsSpin w2.I := by rw [l.I]; exact h.hyp.hI
  have sF := hfFs_spin h.hyp.hI h.hyp.lvl.spin h.hyp.mem
  have sF' := hfFs_spin h.hyp.hI hf.spin q.mem
  have nc : ∀ {c : Nat} {m' : ℚ}, IsZee w2 b F' c m' → w2.zFull c = zeeText u F' m' := fun hc => by
    rw [zee_fullName hi hb f2.1.hF f2.1.hM hc, f2.2.1, e]
  have na : ∀ {c : Nat} {m' : ℚ}, IsZee w2 a0 F c m' → w2.zFull c = zeeText (w.lname i) F m' := fun hc => by
    rw [zee_fullName hi h0 i2.1.hF i2.1.hM hc, i2.2.1]
  have sA : ∀ {c : Nat} {m' : ℚ}, IsZee w2 a0 F c m' → IsHalfInt m' := fun hc => zMs_half sF hc.mem
  have sC : ∀ {c : Nat} {m' : ℚ}, IsZee w2 b F' c m' → IsHalfInt m' := fun hc => zMs_half sF' hc.mem
  have ne2 : ∀ {a c : Nat} {m1 m2 : ℚ}, IsZee w2 a0 F a m1 → IsZee w2 b F' c m2 → w2.zFull a ≠ w2.zFull c := by
    intro a c m1 m2 p r hc
    rw [na p, nc r] at hc
    exact q.ne (zeeText_inj sF.isHalfInt sF'.isHalfInt (sA p) (sC r) hc).1.symm
  have ext : ∀ {a c : Nat} {m1 m2 : ℚ} {s : Str}, IsZee w2 a0 F a m1 → IsZee w2 b F' c m2 →
      (((zeeText (w.lname i) F m = w2.zFull a ∧ s = w2.zFull c) ∨ (zeeText (w.lname i) F m = w2.zFull c ∧ s = w2.zFull a)) ↔
        (m1 = m ∧ a = k0 ∧ s = zeeText u F' m2)) := by
    intro a c m1 m2 s p r
    rw [na p, nc r]
    constructor
    · rintro (⟨h1, h2⟩ | ⟨h1, h2⟩)
      · obtain ⟨-, -, h3⟩ := zeeText_inj sF.isHalfInt sF.isHalfInt (sA hk0) (sA p) h1
        subst h3
        exact ⟨rfl, p.unique hk0, h2⟩
      · exact absurd (zeeText_inj sF.isHalfInt sF'.isHalfInt (sA hk0) (sC r) h1).1.symm q.ne
    · rintro ⟨h1, -, h3⟩
      exact .inl ⟨by rw [h1], h3⟩
  have lk : ∀ {c : Nat} {m' : ℚ}, IsZee w2 b F' c m' →
      (pairOk (w2.linkTr i t a0 b J F J'' F').allowed (some m) (some m') = .ok true ↔ ZLink w i J F m u t j' J'' F' m') := by
    intro c m' hc
    rw [pairOk_near, linkTr_allowed, l.tr, l.I]
    exact ⟨fun hn => ⟨q, hc.mem, hn⟩, fun hl => hl.near⟩
  rcases e12 with ⟨e1, e2⟩ | ⟨e1, e2⟩
  · have ht : (w2.tr t).e1 = i := by rw [l.tr]; exact e1
    have x1 : (w2.linkTr i t a0 b J F J'' F').e1 = a0 := by unfold linkTr; rw [if_pos ht]; rfl
    have x2 : (w2.linkTr i t a0 b J F J'' F').e2 = b := by unfold linkTr; rw [if_pos ht]; rfl
    have ap : ZApart w2 (w2.linkTr i t a0 b J F J'' F') i j' J F J'' F' := by
      refine ⟨by rw [x1]; exact h0, by rw [x2]; exact hb, sF, sF', i2.1.hF, f2.1.hF, i2.1.hM, f2.1.hM, hne⟩
    refine ⟨⟨_, _, _, _, _, _, ap⟩, ?_⟩
    simp only [zlinkTr, if_pos ht]
    constructor
    · rintro ⟨k1, k2, L1, G1, L2, G2, hk, a, c, m1, m2, p1, p2, p3, rfl, p5⟩
      obtain ⟨rfl, rfl, rfl, rfl, rfl, rfl⟩ := ap.unique hk
      rw [x1] at p1; rw [x2] at p2
      obtain ⟨rfl, rfl, rfl⟩ := (ext p1 p2).1 ((oth_zEnds (ne2 p1 p2)).1 p5)
      exact ⟨m2, c, (lk p2).1 p3, rfl, p2, rfl⟩
    · rintro ⟨m', c, z1, rfl, z3, rfl⟩
      refine ⟨_, _, _, _, _, _, ap, k0, c, m, m', by rw [x1]; exact hk0, by rw [x2]; exact z3, (lk z3).2 z1, rfl, ?_⟩
      exact (oth_zEnds (ne2 hk0 z3)).2 ((ext hk0 z3).2 ⟨rfl, rfl, rfl⟩)
  · have ht : ¬(w2.tr t).e1 = i := by rw [l.tr, e1]; exact hij
    have x1 : (w2.linkTr i t a0 b J F J'' F').e1 = b := by unfold linkTr; rw [if_neg ht]; rfl
    have x2 : (w2.linkTr i t a0 b J F J'' F').e2 = a0 := by unfold linkTr; rw [if_neg ht]; rfl
    have ap : ZApart w2 (w2.linkTr i t a0 b J F J'' F') j' i J'' F' J F := by
      refine ⟨by rw [x1]; exact hb, by rw [x2]; exact h0, sF', sF, f2.1.hF, i2.1.hF, f2.1.hM, i2.1.hM, hne.symm⟩
    refine ⟨⟨_, _, _, _, _, _, ap⟩, ?_⟩
    simp only [zlinkTr, if_neg ht]
    constructor
    · rintro ⟨k1, k2, L1, G1, L2, G2, hk, a, c, m1, m2, p1, p2, p3, rfl, p5⟩
      obtain ⟨rfl, rfl, rfl, rfl, rfl, rfl⟩ := ap.unique hk
      rw [x1] at p1; rw [x2] at p2
      obtain ⟨rfl, rfl, rfl⟩ := (ext p2 p1).1 (((oth_zEnds (ne2 p2 p1).symm).1 p5).symm)
      refine ⟨m1, a, (lk p1).1 ?_, rfl, p1, rfl⟩
      rw [pairOk_near] at p3 ⊢
      exact p3.symm
    · rintro ⟨m', c, z1, rfl, z3, rfl⟩
      refine ⟨_, _, _, _, _, _, ap, c, k0, m', m, by rw [x1]; exact z3, by rw [x2]; exact hk0, ?_, rfl, ?_⟩
      · have := (lk z3).2 z1
        rw [pairOk_near] at this ⊢
        exact this.symm
      · exact (oth_zEnds (ne2 hk0 z3).symm).2 ((ext hk0 z3).2 ⟨rfl, rfl, rfl⟩).symm

/-- What `linked_levels` returns for a Zeeman level. -/
theorem linkedZee_spec {W : Wig} (hW : W.Good) {w : World} (hr : Reachable w) {i : Nat} {J F m : ℚ} (h : ZeReady w i J F m) {H : Rows HTr}
    (hH : H.Fits w i F) {Z : Rows ZTr} (hZ : Z.ZFits w i J F m) :
    ∃ w' H' Z' d a0 k0, linkedZee W H Z (zeeText (w.lname i) F m) w = (w', .ok ((H', Z'), d)) ∧ LFrame w w' ∧ Reachable w' ∧
      IsHyp w' i J a0 F ∧ IsZee w' a0 F k0 m ∧ d.keys.Nodup ∧
      (∀ n y, d.get? n = some y ↔ ∃ u t j J' F' m' b c, ZLink w i J F m u t j J' F' m' ∧ n = zeeText u F' m' ∧ IsHyp w' j J' b F' ∧
        IsZee w' b F' c m' ∧ y = w'.zlinkTr (w'.linkTr i t a0 b J F J' F') i t j k0 c J F m J' F' m') ∧
      (∀ u t j J' F', Link w i F u t j J' F' → ∀ m' ∈ zMs F', ∃ b c, IsHyp w' j J' b F' ∧ IsZee w' b F' c m') ∧
      levelsGet (zeeText (w.lname i) F m) w' = (w', .ok (.zee k0)) ∧ H'.Fits w' i F ∧ Z'.ZFits w' i J F m := by
  obtain ⟨w1, a0, k0, g1, hr1, l1, p1, z1, -⟩ := levelsGet_zsub hr h
  have h1 := h.frame l1
  obtain ⟨w2, H2, d, a2, b1, l2, hr2, p2, dn, dx, dall, -, hf2, pk⟩ := linkedHyp_full hW hr1 h1.hyp (hH.frame l1)
  have pk := pk p1.pop
  obtain rfl : a0 = a2 := (p1.carry l2 (pk.lv _ p1.pop)).unique p2
  have l12 := LFrame.trans _ _ _ l1 l2
  have h2 := h.frame l12
  have z2 : IsZee w2 a0 F k0 m := (pk.zee hr1.subInv p1.lt z1.pop p1.F).2 z1
  have dv : ∀ x, x ∈ d.vals ↔ ∃ u t j J' F' b, Link w i F u t j J' F' ∧ IsHyp w2 j J' b F' ∧ x = w2.linkTr i t a0 b J F J' F' := by
    intro x
    rw [Dict.mem_vals dn]
    constructor
    · rintro ⟨n, hn⟩
      obtain ⟨u, t, j, J', F', b, q1, -, q3, q4⟩ := (dx n x).1 hn
      exact ⟨u, t, j, J', F', b, (Link.frame l1).1 q1, q3, q4⟩
    · rintro ⟨u, t, j, J', F', b, q1, q3, q4⟩
      exact ⟨_, (dx _ x).2 ⟨u, t, j, J', F', b, (Link.frame l1).2 q1, rfl, q3, q4⟩⟩
  obtain ⟨w3, Z3, c1, rc, c2, c3, c4, c5, c6⟩ := zeeEdgesAll_spec hW d.vals w2 Z hr2.subInv (fun x hx => by
    obtain ⟨u, t, j, J', F', b, q1, q3, rfl⟩ := (dv x).1 hx
    exact (zedge_link hr h l12 hr2.subInv p2 z2 q1 q3 [] (w2.mkZTr (w2.linkTr i t a0 b J F J' F') 0 0 0 0 0 0 0 0 0 0)).1)
  have l3 := c2.frame
  have l := LFrame.trans _ _ _ l12 l3
  have hr3 := rc hr2
  have p3 : IsHyp w3 i J a0 F := p2.carry l3 (c2.lv _ p2.pop)
  have z3 : IsZee w3 a0 F k0 m := (c2.zee hr2.subInv p2.lt z2.pop p2.F).2 z2
  set key := zeeText (w.lname i) F m with hkey
  have sF := hfFs_spin h.hyp.hI h.hyp.lvl.spin h.hyp.mem
  have nbr : ∀ {u t j J' F'}, Link w i F u t j J' F' → Findable w j J' ∧ IsSpin F' := by
    intro u t j J' F' q
    obtain ⟨j', J'', hj, hf⟩ := h.hyp.nbr u t q.ne q.adj
    obtain rfl : j' = j := Option.some.inj (hj.symm.trans q.lev)
    obtain rfl : J'' = J' := Option.some.inj (hf.hJ.symm.trans q.J)
    exact ⟨hf, hfFs_spin h.hyp.hI hf.spin q.mem⟩
  have carry : ∀ {j b : Nat} {J' F' : ℚ}, IsHyp w2 j J' b F' → IsHyp w3 j J' b F' := fun hb => hb.carry l3 (c2.lv _ hb.pop)
  have ex2 : ∀ {u t j J' F'}, Link w i F u t j J' F' → ∃ b, IsHyp w2 j J' b F' := by
    intro u t j J' F' q
    have q1 := (Link.frame l1).2 q
    exact dall u t j J' q1.ne q1.adj q1.lev q1.J F' q1.mem
  have back : ∀ {u t j b J' F'}, Link w i F u t j J' F' → IsHyp w3 j J' b F' → IsHyp w2 j J' b F' := by
    intro u t j b J' F' q hb
    obtain ⟨b', hb'⟩ := ex2 q
    obtain rfl := hb.unique (carry hb')
    exact hb'
  have edge : ∀ n y, (∃ x ∈ d.vals, ZEdge' w3 key x n y) ↔ ∃ u t j J' F' m' b c, ZLink w i J F m u t j J' F' m' ∧ n = zeeText u F' m' ∧
      IsHyp w3 j J' b F' ∧ IsZee w3 b F' c m' ∧ y = w3.zlinkTr (w3.linkTr i t a0 b J F J' F') i t j k0 c J F m J' F' m' := by
    intro n y
    constructor
    · rintro ⟨x, hx, hy⟩
      obtain ⟨u, t, j, J', F', b, q1, q3, rfl⟩ := (dv x).1 hx
      rw [← l3.linkTr] at hy
      obtain ⟨m', c, r1, r2, r3, r4⟩ := (zedge_link hr h l c3 p3 z3 q1 (carry q3) n y).2.1 hy
      exact ⟨u, t, j, J', F', m', b, c, r1, r2, carry q3, r3, r4⟩
    · rintro ⟨u, t, j, J', F', m', b, c, r1, r2, r3, r4, r5⟩
      refine ⟨w3.linkTr i t a0 b J F J' F', (dv _).2 ⟨u, t, j, J', F', b, r1.link, back r1.link r3, l3.linkTr ..⟩, ?_⟩
      exact (zedge_link hr h l c3 p3 z3 r1.link r3 n y).2.2 ⟨m', c, r1, r2, r4, r5⟩
  have all : ∀ u t j J' F', Link w i F u t j J' F' → ∀ m' ∈ zMs F', ∃ b c, IsHyp w3 j J' b F' ∧ IsZee w3 b F' c m' := by
    intro u t j J' F' q m' hm'
    obtain ⟨b, hb⟩ := ex2 q
    obtain ⟨hf, sF'⟩ := nbr q
    have hx : w2.linkTr i t a0 b J F J' F' ∈ d.vals := (dv _).2 ⟨u, t, j, J', F', b, q, hb, rfl⟩
    obtain ⟨k1, k2⟩ := c4 _ hx
    have pop : (w3.hf b).subs ≠ [] := by
      unfold linkTr at k1 k2
      split at k1
      · rename_i hc
        rw [if_pos hc] at k2
        exact k2
      · exact k1
    have hb3 := carry hb
    have hk : (w3.hf b).subs.keys = (zMs F').map mKey := by
      rcases c3.keys.z b J' F' hb3.J hb3.F sF' with h0 | h0
      · exact absurd h0 pop
      · exact h0
    obtain ⟨c, hc⟩ := zee_all c3 hb3.F sF' hk hm'
    exact ⟨b, c, hb3, hc⟩
  have row : ∀ n y, (Z3 key).get? n = some y ↔ ∃ u t j J' F' m' b c, ZLink w i J F m u t j J' F' m' ∧ n = zeeText u F' m' ∧
      IsHyp w3 j J' b F' ∧ IsZee w3 b F' c m' ∧ y = w3.zlinkTr (w3.linkTr i t a0 b J F J' F') i t j k0 c J F m J' F' m' := by
    intro n y
    rcases c6 key n with ⟨x, hx, y0, hy, hg⟩ | ⟨hno, hg⟩
    · obtain ⟨u, t, j, J', F', m', b, c, q1, q2, q3, q4, q5⟩ := (edge n y0).1 ⟨x, hx, hy⟩
      rw [hg]
      constructor
      · intro e
        rw [← Option.some.inj e]
        exact ⟨u, t, j, J', F', m', b, c, q1, q2, q3, q4, q5⟩
      · rintro ⟨u', t', j', J1, F1, m1, b1, c1, r1, r2, r3, r4, r5⟩
        rw [q2] at r2
        have s1 := (nbr q1.link).2
        have s2 := (nbr r1.link).2
        obtain ⟨rfl, rfl, rfl⟩ := zeeText_inj s1.isHalfInt s2.isHalfInt (zMs_half s1 q1.mem) (zMs_half s2 r1.mem) r2
        obtain rfl : t = t' := Option.some.inj (q1.link.adj.symm.trans r1.link.adj)
        obtain rfl : j = j' := Option.some.inj (q1.link.lev.symm.trans r1.link.lev)
        obtain rfl : J' = J1 := Option.some.inj (q1.link.J.symm.trans r1.link.J)
        obtain rfl : b = b1 := q3.unique r3
        obtain rfl : c = c1 := q4.unique r4
        rw [q5, r5]
    · have none : (Z3 key).get? n = none := by
        rw [hg]
        apply keys_get_none
        intro hmem
        obtain ⟨u, t, j, J', F', m', q1, q2⟩ := hZ.2 n hmem
        obtain ⟨b, c, hb, hc⟩ := all u t j J' F' q1.link m' q1.mem
        obtain ⟨x, hx, he⟩ := (edge n _).2 ⟨u, t, j, J', F', m', b, c, q1, q2, hb, hc, rfl⟩
        exact hno x hx _ he
      rw [none]
      constructor
      · intro e; cases e
      · intro q
        obtain ⟨x, hx, he⟩ := (edge n y).2 q
        exact absurd he (hno x hx _)
  have rn : (Z3 key).keys.Nodup := c5 key hZ.1
  have self : ∀ n y, (Z3 key).get? n = some y → n ≠ key := by
    intro n y hy e
    obtain ⟨u, t, j, J', F', m', b, c, q1, q2, -⟩ := (row n y).1 hy
    rw [q2] at e
    have s1 := (nbr q1.link).2
    exact q1.link.ne (zeeText_inj s1.isHalfInt sF.isHalfInt (zMs_half s1 q1.mem) (zMs_half sF h.mem) e).1
  have i3 := h.hyp.lvl.keep l
  have nkey : w3.zFull k0 = key := by
    rw [zee_fullName c3 p3 i3.1.hF i3.1.hM z3, i3.2.1]
  have hnode : w3.zNode key = true := by
    unfold zNode
    rw [List.any_eq_true]
    exact ⟨k0, List.mem_range.2 z3.lt, by simp [nkey]⟩
  refine ⟨w3, H2, Z3, (Z3 key).filter (fun p => p.1 ≠ key), a0, k0, ?_, l, hr3, p3, z3, (List.filter_sublist.map _).nodup rn, ?_, all, ?_,
    hf2.frame l3, ?_⟩
  · unfold linkedZee
    rw [PyM.bind_ok g1, PyM.bind_ok (show PyM.get w1 = (w1, .ok w1) from rfl)]
    simp only
    have i1 := h.hyp.lvl.keep l1
    rw [z1.par, hyp_fullName hr1.subInv p1 i1.1.hF i1.1.hM, PyM.bind_ok b1]
    simp only
    rw [PyM.bind_ok c1, PyM.bind_ok (show PyM.get w3 = (w3, .ok w3) from rfl), if_pos hnode]
    rfl
  · intro n y
    rw [Dict.get?_filter (fun k => decide (k ≠ key)), ← row n y]
    constructor
    · intro e
      split at e
      · exact e
      · cases e
    · intro e
      rw [if_pos (by simpa using self n y e)]
      exact e
  · obtain ⟨w4, a4, k4, e1, -, -, -, -, e2⟩ := levelsGet_zsub hr3 (h.frame l)
    obtain ⟨rfl, rfl⟩ := e2 a0 k0 p3 z3
    rw [l.lname] at e1
    exact e1
  · unfold Rows.ZFits
    rw [l.lname]
    refine ⟨rn, fun n hn => ?_⟩
    obtain ⟨y, hy⟩ := (Dict.get?_isSome _ n).2 hn
    obtain ⟨u, t, j, J', F', m', b, c, q1, q2, -⟩ := (row n y).1 hy
    exact ⟨u, t, j, J', F', m', (ZLink.frame l).2 q1, q2⟩

/-! ## Rates out of a Zeeman level -/

/-- The strength of a Zeeman line relative to the transition it belongs to. -/
noncomputable def zStr (al : Types) (I J F m J' F' m' : ℚ) : ℝ :=
  hStrength al I J F J' F' * zStrength (hTypes al I J F J' F') F m F' m'

/-- A hyperfine line of a dipole transition has a dipole type or no strength. -/
theorem hTypes_dipole {al : Types} (hd : (al.1 || al.2.1) = true) (I J F J' F' : ℚ) :
    hStrength al I J F J' F' = 0 ∨ ((hTypes al I J F J' F').1 || (hTypes al I J F J' F').2.1) = true := by
  by_cases h6 : six J J' 1 F' F I = 0
  · left
    unfold hStrength
    rw [if_pos hd, h6]
    simp
  · right
    unfold hTypes
    simpa [h6] using hd

theorem zStr_symm {al : Types} (hd : (al.1 || al.2.1) = true) (I J J' : ℚ) {F m F' m' : ℚ} (hF : IsHalfInt F) (hF' : IsHalfInt F')
    (hm : IsHalfInt m) (hm' : IsHalfInt m') : zStr al I J' F' m' J F m = zStr al I J F m J' F' m' := by
  unfold zStr
  rw [hStrength_symm, hTypes_symm]
  rcases hTypes_dipole hd I J F J' F' with h | h
  · rw [h, zero_mul, zero_mul]
  · congr 1
    unfold zStrength
    rw [if_pos h, if_pos h]
    obtain ⟨a, rfl⟩ := half_of hF; obtain ⟨b, rfl⟩ := half_of hF'
    obtain ⟨x, rfl⟩ := half_of hm; obtain ⟨y, rfl⟩ := half_of hm'
    rw [threeSum_one (by decide), threeSum_one (by decide), w3_turn]

theorem zStr_near {al : Types} (hd : (al.1 || al.2.1) = true) (I J J' : ℚ) {F m F' m' : ℚ}
    (hm : IsHalfInt m) (hm' : IsHalfInt m') (h : ¬Near (hTypes al I J F J' F') m m') : zStr al I J F m J' F' m' = 0 := by
  unfold zStr
  rcases hTypes_dipole hd I J F J' F' with h0 | h0
  · rw [h0, zero_mul]
  · by_contra hs
    apply h
    intro _
    have hz : zStrength (hTypes al I J F J' F') F m F' m' ≠ 0 := fun h => hs (by rw [h, mul_zero])
    unfold zStrength at hz
    rw [if_pos h0] at hz
    have : ∃ q ∈ qs1, three F 1 F' (-m) q m' ≠ 0 := by
      by_contra hc
      push Not at hc
      apply hz
      unfold threeSum
      rw [List.map_congr_left (g := fun _ => (0 : ℝ)) (fun q hq => by rw [hc q hq]; norm_num)]
      simp
    obtain ⟨q, hq, h3⟩ := this
    have := three_sel1 hm hm' hq h3
    split <;> linarith

theorem zStr_nonneg (al : Types) (I J m J' m' : ℚ) {F F' : ℚ} (hF : IsSpin F) (hF' : IsSpin F') : 0 ≤ zStr al I J F m J' F' m' := by
  unfold zStr
  have h1 := hF.nonneg
  have h2 := hF'.nonneg
  have p : (0 : ℝ) ≤ (((2 * F + 1) * (2 * F' + 1) : ℚ) : ℝ) := by
    have : (0 : ℚ) ≤ (2 * F + 1) * (2 * F' + 1) := by positivity
    exact_mod_cast this
  refine mul_nonneg ?_ ?_
  · unfold hStrength
    split
    · positivity
    · split
      · positivity
      · exact le_refl _
  · unfold zStrength
    split
    · exact threeSum_nonneg ..
    · split
      · exact threeSum_nonneg ..
      · exact le_refl _

/-- The sum rule over the Zeeman levels of one hyperfine level. -/
theorem zStr_row {al : Types} (hd : (al.1 || al.2.1) = true) {I J J' F m F' : ℚ} (hI : IsSpin I) (hJ : IsSpin J) (hJ' : IsSpin J')
    (hF : F ∈ hfFs I J) (hm : m ∈ zMs F) (hF' : F' ∈ hfFs I J') :
    ((zMs F').map (fun m' => zStr al I J F m J' F' m')).sum = hStrength al I J F J' F' * (1 / ((2 * F + 1 : ℚ) : ℝ)) := by
  have sF := hfFs_spin hI hJ hF
  have sF' := hfFs_spin hI hJ' hF'
  unfold zStr
  rw [List.sum_map_mul_left]
  by_cases h6 : six J J' 1 F' F I = 0
  · have : hStrength al I J F J' F' = 0 := by
      unfold hStrength
      rw [if_pos hd, h6]
      simp
    rw [this]; ring
  · rw [zDipole_sum ?_ sF sF' hm ?_]
    · unfold hTypes
      simpa [h6] using hd
    · have h7 := six_tri (k := 2) sF.isHalfInt sF'.isHalfInt (by rw [half_one]; exact h6)
      rw [half_one] at h7
      refine ⟨h7.1, h7.2, ?_⟩
      obtain ⟨f, rfl⟩ := spin_nat_half sF
      obtain ⟨f', rfl⟩ := spin_nat_half sF'
      obtain ⟨j, rfl⟩ := spin_nat_half hJ
      obtain ⟨j', rfl⟩ := spin_nat_half hJ'
      obtain ⟨i, rfl⟩ := spin_nat_half hI
      rw [← half_one, six_half] at h6
      have t := (w6_tri h6).2.2.2
      rw [show (1 : ℚ) = half ((2 : ℕ) : ℤ) from half_one.symm]
      exact (couples_tri.2 t.swap).2.2

/-- The sum rule of C98 with the triangle rule. -/
theorem zStr_sum {al : Types} (hd : (al.1 || al.2.1) = true) {I J J' F m : ℚ} (hI : IsSpin I) (hJ : IsSpin J) (hJ' : IsSpin J')
    (hc : Couples J J' 1) (hF : F ∈ hfFs I J) (hm : m ∈ zMs F) :
    ((hfFs I J').map (fun F' => ((zMs F').map (fun m' => zStr al I J F m J' F' m')).sum)).sum = 1 / ((2 * J + 1 : ℚ) : ℝ) := by
  rw [List.map_congr_left (fun F' hF' => zStr_row hd hI hJ hJ' hF hm hF'), List.sum_map_mul_right]
  have hl : leading al = 1 := by unfold leading; rw [if_pos hd]
  rw [hStrength_sum hI hJ hJ' (by simp [Types.any, hd]) (by rw [hl]; exact_mod_cast hc) hF]
  have := (hfFs_spin hI hJ hF).nonneg
  have hp : ((2 * F + 1 : ℚ) : ℝ) ≠ 0 := by
    have : (0 : ℚ) < 2 * F + 1 := by linarith
    exact_mod_cast this.ne'
  field_simp

/-- The transitions of level `i` down have a rate and are dipole transitions that the numbers J allow; no transition changes its
direction at the Zeeman level `(F, m)`, whichever sublevels are made. -/
structure ZRadiates (w : World) (i : Nat) (J F m : ℚ) : Prop where
  rate : ∀ u t, Decay w (w.lname i) i u t → ∃ a, (w.tr t).A = some a ∧ 0 ≤ a
  line : ∀ u t j J', Decay w (w.lname i) i u t → w.g.lev u = some j → (w.lv j).term.J = some J' →
    ((w.tr t).allowed.1 || (w.tr t).allowed.2.1) = true ∧ Couples J J' 1
  down : ∀ u t j J', Decay w (w.lname i) i u t → w.g.lev u = some j → (w.lv j).term.J = some J' → ∀ F' ∈ hfFs w.I J', ∀ w' a b k c m',
    Reachable w' → LFrame w w' → IsHyp w' i J a F → IsZee w' a F k m → IsHyp w' j J' b F' → IsZee w' b F' c m' →
    w'.zeeE j J' F' c m' < w'.zeeE i J F k m
  up : ∀ u t j J', u ≠ w.lname i → w.g.adj (w.lname i) u = some t → (w.tr t).upper ≠ i → w.g.lev u = some j → (w.lv j).term.J = some J' →
    ∀ F' ∈ hfFs w.I J', ∀ w' a b k c m', Reachable w' → LFrame w w' → IsHyp w' i J a F → IsZee w' a F k m → IsHyp w' j J' b F' →
    IsZee w' b F' c m' → w'.zeeE i J F k m < w'.zeeE j J' F' c m'

/-- The transitions of level `i` keep their direction at the sublevel `(F, m)`. -/
structure ZDirected (w : World) (i : Nat) (J F m : ℚ) : Prop where
  down : ∀ u t j J', Decay w (w.lname i) i u t → w.g.lev u = some j → (w.lv j).term.J = some J' → ∀ F' ∈ hfFs w.I J', ∀ w' a b k c m',
    Reachable w' → LFrame w w' → IsHyp w' i J a F → IsZee w' a F k m → IsHyp w' j J' b F' → IsZee w' b F' c m' →
    w'.zeeE j J' F' c m' < w'.zeeE i J F k m
  up : ∀ u t j J', u ≠ w.lname i → w.g.adj (w.lname i) u = some t → (w.tr t).upper ≠ i → w.g.lev u = some j → (w.lv j).term.J = some J' →
    ∀ F' ∈ hfFs w.I J', ∀ w' a b k c m', Reachable w' → LFrame w w' → IsHyp w' i J a F → IsZee w' a F k m → IsHyp w' j J' b F' →
    IsZee w' b F' c m' → w'.zeeE i J F k m < w'.zeeE j J' F' c m'

theorem ZRadiates.dir {w : World} {i : Nat} {J F m : ℚ} (h : ZRadiates w i J F m) : ZDirected w i J F m := ⟨h.down, h.up⟩

/-- Without a field the Zeeman levels lie where their hyperfine levels do. -/
theorem zeeE_zero {w : World} (h : w.B = 0) (i : Nat) (J F : ℚ) (k : Nat) (m : ℚ) : w.zeeE i J F k m = w.hypE i J F := by
  unfold zeeE zShift
  rw [h]; ring

/-- Without a field it is enough that the hyperfine levels keep the direction. -/
theorem Radiates.zee {w : World} {i : Nat} {J F : ℚ} (h : Radiates w i J F) (hB : w.B = 0)
    (hd : ∀ u t, Decay w (w.lname i) i u t → ((w.tr t).allowed.1 || (w.tr t).allowed.2.1) = true) (m : ℚ) : ZRadiates w i J F m where
  rate := h.rate
  line := by
    intro u t j J' hdec hj hJ
    have h1 := hd u t hdec
    have h2 := (h.line u t j J' hdec hj hJ).2
    have hl : leading (w.tr t).allowed = 1 := by unfold leading; rw [if_pos h1]
    rw [hl] at h2
    exact ⟨h1, by exact_mod_cast h2⟩
  down := by
    intro u t j J' hdec hj hJ F' hF' w' a b k c m' _ l _ _ _ _
    rw [zeeE_zero (by rw [l.B]; exact hB), zeeE_zero (by rw [l.B]; exact hB), l.hypE, l.hypE]
    exact h.down u t j J' hdec hj hJ F' hF'
  up := by
    intro u t j J' hn ha hu hj hJ F' hF' w' a b k c m' _ l _ _ _ _
    rw [zeeE_zero (by rw [l.B]; exact hB), zeeE_zero (by rw [l.B]; exact hB), l.hypE, l.hypE]
    exact h.up u t j J' hn ha hu hj hJ F' hF'

open Classical in
/-- The Zeeman levels below and the rates to them. -/
noncomputable def zouts (w : World) (J F m : ℚ) (l : Dict Str Nat) : Dict Str ℝ := l.flatMap (fun p =>
  ((hfFs w.I (Jof w p.1)).filter (fun F' => Near (w.tr p.2).allowed F F')).flatMap (fun F' =>
    ((zMs F').filter (fun m' => Near (hTypes (w.tr p.2).allowed w.I J F (Jof w p.1) F') m m')).map (fun m' =>
      (zeeText p.1 F' m', rateOf w p.2 * zStr (w.tr p.2).allowed w.I J F m (Jof w p.1) F' m'))))

theorem mem_zouts {w : World} {J F m : ℚ} {l : Dict Str Nat} {n : Str} {a : ℝ} : (n, a) ∈ zouts w J F m l ↔
    ∃ u t F' m', (u, t) ∈ l ∧ F' ∈ hfFs w.I (Jof w u) ∧ Near (w.tr t).allowed F F' ∧ m' ∈ zMs F' ∧
      Near (hTypes (w.tr t).allowed w.I J F (Jof w u) F') m m' ∧ n = zeeText u F' m' ∧
      a = rateOf w t * zStr (w.tr t).allowed w.I J F m (Jof w u) F' m' := by
  unfold zouts
  simp only [List.mem_flatMap, List.mem_map, List.mem_filter, decide_eq_true_eq, Prod.mk.injEq, Prod.exists]
  constructor
  · rintro ⟨u, t, h1, F', ⟨h2, h3⟩, m', ⟨h4, h5⟩, h6, h7⟩
    exact ⟨u, t, F', m', h1, h2, h3, h4, h5, h6.symm, h7.symm⟩
  · rintro ⟨u, t, F', m', h1, h2, h3, h4, h5, h6, h7⟩
    exact ⟨u, t, h1, F', ⟨h2, h3⟩, m', ⟨h4, h5⟩, h6.symm, h7.symm⟩

theorem zMs_nodup {F : ℚ} (hF : IsSpin F) : (zMs F).Nodup := by
  obtain ⟨n, h1, _⟩ := spin_count_m hF
  unfold zMs
  exact AtomTk.arange_nodup h1

theorem zouts_nodup {w : World} {i : Nat} {J F m : ℚ} (h : HfReady w i J F) {l : Dict Str Nat} (hn : l.keys.Nodup)
    (hl : ∀ u t, (u, t) ∈ l ↔ Decay w (w.lname i) i u t) : (zouts w J F m l).keys.Nodup := by
  have hsp : ∀ p ∈ l, ∀ F' ∈ hfFs w.I (Jof w p.1), IsSpin F' := by
    rintro ⟨u, t⟩ hp F' hF'
    obtain ⟨j, -, hf⟩ := h.to ((hl u t).1 hp)
    exact hfFs_spin h.hI hf.spin hF'
  unfold Dict.keys zouts
  rw [List.map_flatMap, List.nodup_flatMap]
  constructor
  · rintro ⟨u, t⟩ hp
    obtain ⟨j, -, hf⟩ := h.to ((hl u t).1 hp)
    rw [List.map_flatMap, List.nodup_flatMap]
    constructor
    · intro F' hF'
      have sF' := hsp _ hp F' (List.mem_filter.1 hF').1
      rw [List.map_map]
      refine List.Nodup.map_on ?_ ((zMs_nodup sF').filter _)
      intro x hx y hy hxy
      exact (zeeText_inj sF'.isHalfInt sF'.isHalfInt (zMs_half sF' (List.mem_filter.1 hx).1) (zMs_half sF' (List.mem_filter.1 hy).1) hxy).2.2
    · refine List.Pairwise.imp_of_mem (fun {x y} hx hy hxy => ?_) ((hfFs_nodup h.hI hf.spin).filter _)
      have sx := hsp _ hp x (List.mem_filter.1 hx).1
      have sy := hsp _ hp y (List.mem_filter.1 hy).1
      rw [Function.onFun, List.disjoint_left]
      intro n h1 h2
      simp only [List.mem_map, List.mem_filter] at h1 h2
      obtain ⟨-, ⟨x', ⟨hx', -⟩, rfl⟩, rfl⟩ := h1
      obtain ⟨-, ⟨y', ⟨hy', -⟩, rfl⟩, h3⟩ := h2
      exact hxy (zeeText_inj sy.isHalfInt sx.isHalfInt (zMs_half sy hy') (zMs_half sx hx') h3).2.1.symm
  · have hp : l.Pairwise (fun p q => p.1 ≠ q.1) := by
      unfold Dict.keys at hn
      exact List.pairwise_map.1 hn
    refine hp.imp_of_mem (fun {p q} hpm hqm hpq => ?_)
    rw [Function.onFun, List.disjoint_left]
    intro n h1 h2
    simp only [List.mem_map, List.mem_flatMap, List.mem_filter] at h1 h2
    obtain ⟨-, ⟨x, ⟨hx, -⟩, x', ⟨hx', -⟩, rfl⟩, rfl⟩ := h1
    obtain ⟨-, ⟨y, ⟨hy, -⟩, y', ⟨hy', -⟩, rfl⟩, h3⟩ := h2
    have sx := hsp _ hpm x hx
    have sy := hsp _ hqm y hy
    exact hpq (zeeText_inj sy.isHalfInt sx.isHalfInt (zMs_half sy hy') (zMs_half sx hx') h3).1.symm

theorem sum_flatMap {α β : Type} (f : α → List β) (g : β → ℝ) : ∀ l : List α, ((l.flatMap f).map g).sum = (l.map (fun x => ((f x).map g).sum)).sum
  | [] => rfl
  | x :: l => by
    rw [List.flatMap_cons, List.map_append, List.sum_append, sum_flatMap f g l, List.map_cons, List.sum_cons]

open Classical in
/-- The rates to the Zeeman levels of one level. -/
theorem zouts_one {w : World} {i : Nat} {J F m : ℚ} (h : ZeReady w i J F m) (hd : ZRadiates w i J F m) {u : Str} {t : Nat}
    (hdec : Decay w (w.lname i) i u t) :
    ((hfFs w.I (Jof w u)).map (fun F' => ((zMs F').map (fun m' => rateOf w t * zStr (w.tr t).allowed w.I J F m (Jof w u) F' m')).sum)).sum =
      rateOf w t * (1 / ((2 * J + 1 : ℚ) : ℝ)) := by
  obtain ⟨j, hj, hf⟩ := h.hyp.to hdec
  obtain ⟨h1, h2⟩ := hd.line u t j _ hdec hj hf.hJ
  simp only [List.sum_map_mul_left]
  rw [zStr_sum h1 h.hyp.hI h.hyp.lvl.spin hf.spin h2 h.hyp.mem h.mem]

open Classical in
/-- The total rate. -/
theorem zouts_sum {w : World} {i : Nat} {J F m : ℚ} (h : ZeReady w i J F m) (hd : ZRadiates w i J F m) {l : Dict Str Nat}
    (hl : ∀ u t, (u, t) ∈ l → Decay w (w.lname i) i u t) :
    ((zouts w J F m l).map (·.2)).sum = (l.map (fun p => rateOf w p.2)).sum * (1 / ((2 * J + 1 : ℚ) : ℝ)) := by
  unfold zouts
  rw [sum_flatMap, ← List.sum_map_mul_right]
  congr 1
  refine List.map_congr_left ?_
  rintro ⟨u, t⟩ hp
  have hdec := hl u t hp
  obtain ⟨j, hj, hf⟩ := h.hyp.to hdec
  have h1 := (hd.line u t j _ hdec hj hf.hJ).1
  rw [← zouts_one h hd hdec, sum_flatMap]
  have sF := hfFs_spin h.hyp.hI h.hyp.lvl.spin h.hyp.mem
  have inner : ∀ F' ∈ hfFs w.I (Jof w u), ((((zMs F').filter (fun m' => Near (hTypes (w.tr t).allowed w.I J F (Jof w u) F') m m')).map (fun m' =>
      (zeeText u F' m', rateOf w t * zStr (w.tr t).allowed w.I J F m (Jof w u) F' m'))).map (·.2)).sum =
      ((zMs F').map (fun m' => rateOf w t * zStr (w.tr t).allowed w.I J F m (Jof w u) F' m')).sum := by
    intro F' hF'
    have sF' := hfFs_spin h.hyp.hI hf.spin hF'
    rw [List.map_map]
    refine sum_filter_zero _ _ _ (fun m' hm' hn => ?_)
    simp only [Function.comp]
    rw [zStr_near h1 _ _ _ (zMs_half sF h.mem) (zMs_half sF' hm') hn, mul_zero]
  simp only
  rw [List.map_congr_left (fun F' hF' => inner F' (List.mem_filter.1 hF').1)]
  refine sum_filter_zero _ _ _ (fun F' hF' hn => ?_)
  have h0 := hStrength_near (I := w.I) (J := J) (J' := Jof w u) sF.isHalfInt (hfFs_spin h.hyp.hI hf.spin hF').isHalfInt hn
  unfold zStr
  simp [h0]

theorem zlinkTr_A {w : World} {i t j a b k c : Nat} {J F m J' F' m' : ℚ} (hd : ((w.tr t).allowed.1 || (w.tr t).allowed.2.1) = true)
    (hF : IsHalfInt F) (hF' : IsHalfInt F') (hm : IsHalfInt m) (hm' : IsHalfInt m') :
    (w.zlinkTr (w.linkTr i t a b J F J' F') i t j k c J F m J' F' m').A =
      (w.tr t).A.map (fun A => (A : ℝ) * zStr (w.tr t).allowed w.I J F m J' F' m') := by
  have hx := linkTr_A w i t a b J F J' F'
  have hal := linkTr_allowed w i t a b J F J' F'
  have hs := zStr_symm hd w.I J J' hF hF' hm hm'
  unfold zlinkTr
  split
  · unfold mkZTr
    simp only
    rw [hx, hal, Option.map_map]
    congr 1
    funext A
    simp only [Function.comp, zStr]
    ring
  · unfold mkZTr
    simp only
    rw [hx, hal, Option.map_map]
    congr 1
    funext A
    rw [← hs]
    simp only [Function.comp, zStr]
    rw [hStrength_symm, hTypes_symm]
    ring

theorem zlinkTr_upper {w w2 : World} (hr : Reachable w) {i a0 b k0 c : Nat} {J F m : ℚ} (h : ZeReady w i J F m) (hd : ZDirected w i J F m)
    (l : LFrame w w2) (hr2 : Reachable w2) (h0 : IsHyp w2 i J a0 F) (hk0 : IsZee w2 a0 F k0 m) {u : Str} {t j : Nat} {J' F' m' : ℚ}
    (q : ZLink w i J F m u t j J' F' m') (hb : IsHyp w2 j J' b F') (hc : IsZee w2 b F' c m') (x : HTr) :
    c ≠ k0 ∧ ((w2.zlinkTr x i t j k0 c J F m J' F' m').upper = k0 ∨ (w2.zlinkTr x i t j k0 c J F m J' F' m').upper = c) ∧
      ((w2.zlinkTr x i t j k0 c J F m J' F' m').upper = k0 ↔ (w.tr t).upper = i) := by
  obtain ⟨e, e12⟩ := link_ends hr h.hyp.lvl.reg q.link.adj q.link.lev
  have hij : j ≠ i := by rintro rfl; exact q.link.ne e.symm
  have hck : c ≠ k0 := by
    rintro rfl
    have := hc.par.symm.trans hk0.par
    subst this
    exact hij (hb.par.symm.trans h0.par)
  refine ⟨hck, ?_⟩
  have hE : (w.tr t).upper = i → w2.zeeE j J' F' c m' < w2.zeeE i J F k0 m := fun hu =>
    hd.down u t j J' ⟨q.link.ne, q.link.adj, hu⟩ q.link.lev q.link.J F' q.link.mem w2 a0 b k0 c m' hr2 l h0 hk0 hb hc
  have hE' : (w.tr t).upper ≠ i → w2.zeeE i J F k0 m < w2.zeeE j J' F' c m' := fun hu =>
    hd.up u t j J' q.link.ne q.link.adj hu q.link.lev q.link.J F' q.link.mem w2 a0 b k0 c m' hr2 l h0 hk0 hb hc
  rcases e12 with ⟨e1, e2⟩ | ⟨e1, e2⟩
  · unfold zlinkTr
    rw [if_pos (by rw [l.tr]; exact e1)]
    unfold mkZTr
    simp only
    by_cases hu : (w.tr t).upper = i
    · have := hE hu
      simp [not_lt_of_gt this, hu]
    · have := hE' hu
      simp [this, hu, hck]
  · unfold zlinkTr
    rw [if_neg (by rw [l.tr, e1]; exact hij)]
    unfold mkZTr
    simp only
    by_cases hu : (w.tr t).upper = i
    · have := hE hu
      simp [this, hu]
    · have := hE' hu
      simp [not_lt_of_gt this, hu, hck]

/-- The transitions down from a Zeeman level. -/
theorem zdowns_perm {w w' : World} (hr : Reachable w) {i a0 k0 : Nat} {J F m : ℚ} (h : ZeReady w i J F m) (hd : ZRadiates w i J F m)
    (lf : LFrame w w') (hr' : Reachable w') (h0 : IsHyp w' i J a0 F) (hk0 : IsZee w' a0 F k0 m) {d : Dict Str ZTr} (dn : d.keys.Nodup)
    (hx : ∀ n y, d.get? n = some y ↔ ∃ u t j J' F' m' b c, ZLink w i J F m u t j J' F' m' ∧ n = zeeText u F' m' ∧ IsHyp w' j J' b F' ∧
        IsZee w' b F' c m' ∧ y = w'.zlinkTr (w'.linkTr i t a0 b J F J' F') i t j k0 c J F m J' F' m')
    (hall : ∀ u t j J' F', Link w i F u t j J' F' → ∀ m' ∈ zMs F', ∃ b c, IsHyp w' j J' b F' ∧ IsZee w' b F' c m')
    {l : Dict Str Nat} (hn : l.keys.Nodup) (hl : ∀ u t, (u, t) ∈ l ↔ Decay w (w.lname i) i u t) :
    ((d.filter (fun p => p.2.upper = k0)).map (fun p => (p.1, p.2.A))).Perm ((zouts w J F m l).map (fun p => (p.1, some p.2))) := by
  have sF := hfFs_spin h.hyp.hI h.hyp.lvl.spin h.hyp.mem
  have n1 : ((d.filter (fun p => p.2.upper = k0)).map (fun p => (p.1, p.2.A))).Nodup := by
    refine List.Nodup.of_map Prod.fst ?_
    rw [List.map_map]
    exact (List.filter_sublist.map _).nodup dn
  have n2 : ((zouts w J F m l).map (fun p => (p.1, some p.2))).Nodup := by
    refine List.Nodup.of_map Prod.fst ?_
    rw [List.map_map]
    exact zouts_nodup h.hyp hn hl
  rw [List.perm_ext_iff_of_nodup n1 n2]
  rintro ⟨n, A⟩
  simp only [List.mem_map, List.mem_filter, decide_eq_true_eq, Prod.mk.injEq, Prod.exists]
  constructor
  · rintro ⟨n', y, ⟨h1, h2⟩, rfl, rfl⟩
    obtain ⟨u, t, j, J', F', m', b, c, q1, q2, q3, q4, rfl⟩ := (hx n' y).1 ((Dict.mem_iff dn _ _).1 h1)
    have hu := (zlinkTr_upper hr h hd.dir lf hr' h0 hk0 q1 q3 q4 _).2.2.1 h2
    have hdec : Decay w (w.lname i) i u t := ⟨q1.link.ne, q1.link.adj, hu⟩
    obtain ⟨a, ha, -⟩ := hd.rate u t hdec
    have hJ := Jof_eq q1.link.lev q1.link.J
    obtain ⟨j', hj', hf⟩ := h.hyp.to hdec
    rw [hJ] at hf
    have sF' := hfFs_spin h.hyp.hI hf.spin q1.link.mem
    have hdip := (hd.line u t j J' hdec q1.link.lev q1.link.J).1
    refine ⟨n', _, mem_zouts.2 ⟨u, t, F', m', (hl u t).2 hdec, by rw [hJ]; exact q1.link.mem, q1.link.near, q1.mem, by rw [hJ]; exact q1.near, q2, rfl⟩,
      rfl, ?_⟩
    rw [zlinkTr_A (by rw [lf.tr]; exact hdip) sF.isHalfInt sF'.isHalfInt (zMs_half sF h.mem) (zMs_half sF' q1.mem), lf.tr, ha, lf.I, hJ]
    unfold rateOf
    rw [ha]; rfl
  · rintro ⟨n', a', h1, rfl, rfl⟩
    obtain ⟨u, t, F', m', c1, c2, c3, c4, c5, c6, c7⟩ := mem_zouts.1 h1
    have hdec := (hl u t).1 c1
    obtain ⟨j, hj, hf⟩ := h.hyp.to hdec
    have lk : Link w i F u t j (Jof w u) F' := ⟨hdec.1, hdec.2.1, hj, hf.hJ, c2, c3⟩
    obtain ⟨b, c, hb, hc⟩ := hall u t j _ F' lk m' c4
    have q : ZLink w i J F m u t j (Jof w u) F' m' := ⟨lk, c4, c5⟩
    obtain ⟨a, ha, -⟩ := hd.rate u t hdec
    have sF' := hfFs_spin h.hyp.hI hf.spin c2
    have hdip := (hd.line u t j _ hdec hj hf.hJ).1
    refine ⟨n', _, ⟨(Dict.mem_iff dn _ _).2 ((hx n' _).2 ⟨u, t, j, _, F', m', b, c, q, c6, hb, hc, rfl⟩),
      (zlinkTr_upper hr h hd.dir lf hr' h0 hk0 q hb hc _).2.2.2 hdec.2.2⟩, rfl, ?_⟩
    rw [zlinkTr_A (by rw [lf.tr]; exact hdip) sF.isHalfInt sF'.isHalfInt (zMs_half sF h.mem) (zMs_half sF' c4), lf.tr, ha, lf.I, c7]
    unfold rateOf
    rw [ha]; rfl

/-- The rate in terms of the symbols. -/
theorem zStr_dipole {al : Types} (hd : (al.1 || al.2.1) = true) (I J F m J' F' m' : ℚ) : zStr al I J F m J' F' m' =
    (((2 * F + 1) * (2 * F' + 1) : ℚ) : ℝ) * six J J' 1 F' F I ^ 2 * (([-1, 0, 1] : List ℚ).map (fun q => three F 1 F' (-m) q m' ^ 2)).sum := by
  unfold zStr
  rcases hTypes_dipole hd I J F J' F' with h | h
  · have h' := h
    unfold hStrength at h'
    rw [if_pos hd] at h'
    rw [h, h', zero_mul, zero_mul]
  · unfold zStrength hStrength threeSum qs1
    rw [if_pos h, if_pos hd]

/-- Shares of a total. -/
theorem shares_ok {D : Dict Str (Option ℝ)} {o : Dict Str ℝ} (h : D.Perm (o.map (fun p => (p.1, some p.2)))) (hn : o.keys.Nodup)
    (hnn : ∀ a ∈ o.map (·.2), 0 ≤ a) {T : ℝ} (hT : (o.map (·.2)).sum = T) (hp : 0 < T) :
    ∃ d, sharesOf D = .ok d ∧ d.keys.Perm o.keys ∧ d.keys.Nodup ∧ (∀ v ∈ d.vals, ∃ r, v = some r ∧ 0 ≤ r ∧ r ≤ 1) ∧
      (d.vals.map (fun v => v.getD 0)).sum = 1 ∧ (∀ n a, (n, a) ∈ o → shareOf d n = a / T) ∧ ∀ n, n ∉ o.keys → shareOf d n = 0 := by
  obtain ⟨d, c1, c2⟩ := sharesOf_eq h
  rw [hT] at c2
  have dperm : d.Perm (o.map (fun p => (p.1, some (p.2 / T)))) := by
    refine c2.trans (List.Perm.of_eq (List.map_congr_left (fun p _ => ?_)))
    unfold share; rw [if_neg hp.ne']
  have dkeys : d.keys.Perm o.keys := by
    have := dperm.map (·.1)
    rw [List.map_map] at this
    exact this
  have dnod := dkeys.nodup_iff.2 hn
  refine ⟨d, c1, dkeys, dnod, ?_, ?_, ?_, ?_⟩
  · intro v hv
    obtain ⟨p, hm, rfl⟩ := List.mem_map.1 hv
    obtain ⟨⟨n, a⟩, hm', rfl⟩ := List.mem_map.1 (dperm.mem_iff.1 hm)
    have ha : a ∈ o.map (·.2) := List.mem_map.2 ⟨(n, a), hm', rfl⟩
    refine ⟨a / T, rfl, div_nonneg (hnn a ha) hp.le, (div_le_one hp).2 ?_⟩
    rw [← hT]
    exact List.single_le_sum hnn a ha
  · have h1 := (dperm.map (fun p => p.2.getD 0)).sum_eq
    rw [List.map_map] at h1
    have e1 : (o.map ((fun p : Str × Option ℝ => p.2.getD 0) ∘ fun p => (p.1, some (p.2 / T)))) = (o.map (·.2)).map (· * T⁻¹) := by
      rw [List.map_map]
      exact List.map_congr_left (fun p _ => div_eq_mul_inv _ _)
    rw [e1, List.sum_map_mul_right, List.map_id', hT, mul_inv_cancel₀ hp.ne'] at h1
    unfold Dict.vals
    rw [List.map_map]
    exact h1
  · intro n a hm
    unfold shareOf
    rw [Dict.get?_of_mem dnod (dperm.mem_iff.2 (List.mem_map.2 ⟨(n, a), hm, rfl⟩))]
    rfl
  · intro n hm
    unfold shareOf
    rw [keys_get_none (fun h => hm (dkeys.mem_iff.1 h))]
    rfl

/-! ## C107 -/

/-- A multipole of the transition couples the two Zeeman levels: neither its 6j nor its 3j symbol vanishes. -/
def ZLine (al : Types) (I J F m J' F' m' : ℚ) : Prop :=
  ((al.1 = true ∨ al.2.1 = true) ∧ six J J' 1 F' F I ≠ 0 ∧ ∃ q ∈ ([-1, 0, 1] : List ℚ), three F 1 F' (-m) q m' ≠ 0) ∨
    (al.2.2 = true ∧ six J J' 2 F' F I ≠ 0 ∧ ∃ q ∈ ([-2, -1, 0, 1, 2] : List ℚ), three F 2 F' (-m) q m' ≠ 0)

/-- C107 in full: `linked_levels` of a Zeeman level lists the Zeeman levels of the linked levels that a multipole of the transition
couples it to, and no others. -/
def C107_full : Prop := ∀ (W : Wig), W.Good → ∀ (w : World), Reachable w → ∀ (i : Nat) (J F m : ℚ), ZeReady w i J F m →
  ∃ w' r d, linkedZee W Rows.empty Rows.empty (zeeText (w.lname i) F m) w = (w', .ok (r, d)) ∧
    ∀ n, n ∈ d.keys ↔ ∃ u t j J' F' m', u ≠ w.lname i ∧ w.g.adj (w.lname i) u = some t ∧ w.g.lev u = some j ∧ (w.lv j).term.J = some J' ∧
      F' ∈ hfFs w.I J' ∧ m' ∈ zMs F' ∧ ZLine (w.tr t).allowed w.I J F m J' F' m' ∧ n = zeeText u F' m'

/-- C107 as far as it holds: the Zeeman levels listed are those of the hyperfine levels listed for the hyperfine level, with m at a
distance that the types of the hyperfine transition allow; each entry is a transition between the two; no name is listed twice; the
atom is left as it was but for sublevels made; and asking again gives the same names.  (Missing: pairs that no multipole couples are
listed too, and with M1 and E2 both allowed the pairs at distance 2 are not.) -/
theorem C107_listed_partial {W : Wig} (hW : W.Good) {w : World} (hr : Reachable w) {i : Nat} {J F m : ℚ} (h : ZeReady w i J F m)
    {H : Rows HTr} (hH : H.Fits w i F) {Z : Rows ZTr} (hZ : Z.ZFits w i J F m) :
    ∃ w' H' Z' d a0 k0, linkedZee W H Z (zeeText (w.lname i) F m) w = (w', .ok ((H', Z'), d)) ∧ LFrame w w' ∧
      IsHyp w' i J a0 F ∧ IsZee w' a0 F k0 m ∧ d.keys.Nodup ∧
      (∀ n, n ∈ d.keys ↔ ∃ u t j J' F' m', ZLink w i J F m u t j J' F' m' ∧ n = zeeText u F' m') ∧
      (∀ n y, d.get? n = some y → ∃ u t j J' F' m' b c, ZLink w i J F m u t j J' F' m' ∧ n = zeeText u F' m' ∧ IsHyp w' j J' b F' ∧
        IsZee w' b F' c m' ∧ ((y.e1 = k0 ∧ y.e2 = c) ∨ (y.e1 = c ∧ y.e2 = k0)) ∧ ((y.lower = k0 ∧ y.upper = c) ∨ (y.lower = c ∧ y.upper = k0))) ∧
      ∃ w'' r d', linkedZee W H' Z' (zeeText (w.lname i) F m) w' = (w'', .ok (r, d')) ∧ ∀ n, n ∈ d'.keys ↔ n ∈ d.keys := by
  obtain ⟨w', H', Z', d, a0, k0, h1, h2, h3, h4, h5, h6, h7, h8, h9, h10, h11⟩ := linkedZee_spec hW hr h hH hZ
  have keys : ∀ n, n ∈ d.keys ↔ ∃ u t j J' F' m', ZLink w i J F m u t j J' F' m' ∧ n = zeeText u F' m' := by
    intro n
    rw [← Dict.get?_isSome]
    constructor
    · rintro ⟨x, hx⟩
      obtain ⟨u, t, j, J', F', m', b, c, q1, q2, -⟩ := (h7 n x).1 hx
      exact ⟨u, t, j, J', F', m', q1, q2⟩
    · rintro ⟨u, t, j, J', F', m', q1, q2⟩
      obtain ⟨b, c, hb, hc⟩ := h8 u t j J' F' q1.link m' q1.mem
      exact ⟨_, (h7 n _).2 ⟨u, t, j, J', F', m', b, c, q1, q2, hb, hc, rfl⟩⟩
  refine ⟨w', H', Z', d, a0, k0, h1, h2, h4, h5, h6, keys, fun n x hx => ?_, ?_⟩
  · obtain ⟨u, t, j, J', F', m', b, c, q1, q2, q3, q4, rfl⟩ := (h7 n x).1 hx
    refine ⟨u, t, j, J', F', m', b, c, q1, q2, q3, q4, ?_⟩
    unfold zlinkTr mkZTr
    split
    · refine ⟨.inl ⟨rfl, rfl⟩, ?_⟩
      simp only
      split <;> simp
    · refine ⟨.inr ⟨rfl, rfl⟩, ?_⟩
      simp only
      split <;> simp
  · obtain ⟨w2, H2, Z2, d2, a2, k2, g1, -, -, -, -, -, g7, g8, -⟩ := linkedZee_spec hW h3 (h.frame h2) h10 h11
    rw [h2.lname] at g1
    refine ⟨w2, _, d2, g1, fun n => ?_⟩
    rw [keys, ← Dict.get?_isSome]
    constructor
    · rintro ⟨x, hx⟩
      obtain ⟨u, t, j, J', F', m', b, c, q1, q2, -⟩ := (g7 n x).1 hx
      exact ⟨u, t, j, J', F', m', (ZLink.frame h2).1 q1, q2⟩
    · rintro ⟨u, t, j, J', F', m', q1, q2⟩
      have q1 := (ZLink.frame h2).2 q1
      obtain ⟨b, c, hb, hc⟩ := g8 u t j J' F' q1.link m' q1.mem
      exact ⟨_, (g7 n _).2 ⟨u, t, j, J', F', m', b, c, q1, q2, hb, hc, rfl⟩⟩

/-! ## C108 -/

/-- C108 in full: a Zeeman level lives as long as its level. -/
def C108_full : Prop := ∀ (W : Wig), W.Good → ∀ (w : World), Reachable w → ∀ (i : Nat) (J F m : ℚ), ZeReady w i J F m → ZRadiates w i J F m →
  ∃ w' τ, zeeLifetime W Rows.empty Rows.empty (zeeText (w.lname i) F m) w = (w', .ok τ) ∧ stateLifetime (w.lname i) w = (w, .ok τ)

/-- The lifetime that the code gives a Zeeman level of a level with dipole lines: that of the level times `2J+1`, where it should be
the same. -/
theorem C108_lifetime_partial {W : Wig} (hW : W.Good) {w : World} (hr : Reachable w) {i : Nat} {J F m : ℚ} (h : ZeReady w i J F m)
    (hd : ZRadiates w i J F m) {H : Rows HTr} (hH : H.Fits w i F) {Z : Rows ZTr} (hZ : Z.ZFits w i J F m) :
    ∃ w' τ, zeeLifetime W H Z (zeeText (w.lname i) F m) w = (w', .ok (τ.scale ((2 * J + 1 : ℚ) : ℝ))) ∧
      stateLifetime (w.lname i) w = (w, .ok τ) := by
  obtain ⟨w', H', Z', d, a0, k0, h1, h2, h3, h4, h5, h6, h7, h8, h9, h10, h11⟩ := linkedZee_spec hW hr h hH hZ
  obtain ⟨l, l1, l2, l3⟩ := totalA_eq hr (h.hyp.lvl.plain h.hyp.ali) h.hyp.lvl.reg (fun n t q => (hd.rate n t q).imp fun _ q => q.1)
  have hp := zdowns_perm hr h hd h2 h3 h4 h5 h6 h7 h8 l1 l2
  obtain ⟨c1, c2⟩ := downs_coeffs (e := .TypeError) hp
  rw [zouts_sum h hd (fun m t => (l2 m t).1)] at c2
  have e : (d.vals.filter (fun x => Ref.zee x.upper = Ref.zee k0)).map ZTr.A =
      Dict.vals ((d.filter (fun p => p.2.upper = k0)).map (fun p => (p.1, p.2.A))) := by
    unfold Dict.vals
    rw [List.filter_map, List.map_map, List.map_map]
    congr 1
    apply List.filter_congr
    intro p _
    simp
  refine ⟨w', _, ?_, lifetime_of_total l3⟩
  unfold zeeLifetime
  rw [PyM.bind_ok h1]
  simp only
  rw [PyM.bind_ok h9, e]
  rw [PyM.bind_ok (show PyM.lift (coeffs .TypeError _) w' = (w', .ok _) by unfold PyM.lift; rw [c1])]
  rw [c2]
  have sJ := h.hyp.lvl.spin.nonneg
  have pJ : (0 : ℝ) < ((2 * J + 1 : ℚ) : ℝ) := by
    have : (0 : ℚ) < 2 * J + 1 := by linarith
    exact_mod_cast this
  have hs : (l.map (fun p => rateOf w p.2)).sum = (((l.map (fun p => ((w.tr p.2).A).getD 0)).sum : ℚ) : ℝ) := by
    rw [Rat.cast_list_sum, List.map_map]; rfl
  rw [hs]
  set tot := (l.map (fun p => ((w.tr p.2).A).getD 0)).sum
  unfold lifetimeOf
  by_cases h0 : tot = 0
  · rw [h0]
    simp [World.Time.scale]
    rfl
  · have h0' : ((tot : ℚ) : ℝ) ≠ 0 := by exact_mod_cast h0
    rw [if_neg (by positivity), if_neg h0]
    have := Real.pi_pos
    simp only [World.Time.scale]
    show (w', Except.ok (World.Time.sec _)) = _
    congr 3
    field_simp

/-! ## C109 -/

/-- The transitions down from a Zeeman level, by name and by object. -/
theorem zee_downs {w w' : World} (hr : Reachable w) {i a0 k0 : Nat} {J F m : ℚ} (h : ZeReady w i J F m) (hd : ZDirected w i J F m)
    (h2 : LFrame w w') (h3 : Reachable w') (h4 : IsHyp w' i J a0 F) (h5 : IsZee w' a0 F k0 m) {d : Dict Str ZTr} (h6 : d.keys.Nodup)
    (h7 : ∀ n y, d.get? n = some y ↔ ∃ u t j J' F' m' b c, ZLink w i J F m u t j J' F' m' ∧ n = zeeText u F' m' ∧ IsHyp w' j J' b F' ∧
        IsZee w' b F' c m' ∧ y = w'.zlinkTr (w'.linkTr i t a0 b J F J' F') i t j k0 c J F m J' F' m') :
    (d.filter (fun p => w'.zFull p.2.upper = zeeText (w.lname i) F m)) = d.filter (fun p => p.2.upper = k0) := by
  have sFs := hfFs_spin h.hyp.hI h.hyp.lvl.spin h.hyp.mem
  apply List.filter_congr
  rintro ⟨n, x⟩ hx
  obtain ⟨u, t, j, J', F', m', b, c, q1, q2, q3, q4, rfl⟩ := (h7 n x).1 ((Dict.mem_iff h6 _ _).1 hx)
  obtain ⟨u1, u2, -⟩ := zlinkTr_upper hr h hd h2 h3 h4 h5 q1 q3 q4 (w'.linkTr i t a0 b J F J' F')
  have f2 := h.hyp.lvl.keep h2
  have na : w'.zFull k0 = zeeText (w.lname i) F m := by
    rw [zee_fullName h3.subInv h4 f2.1.hF f2.1.hM h5, f2.2.1]
  have nb : w'.zFull c ≠ zeeText (w.lname i) F m := by
    obtain ⟨j', J'', hj', hf⟩ := h.hyp.nbr u t q1.link.ne q1.link.adj
    rw [q1.link.lev] at hj'
    obtain rfl := Option.some.inj hj'
    obtain rfl : J' = J'' := Option.some.inj (q1.link.J.symm.trans hf.hJ)
    have g2 := hf.keep h2
    obtain ⟨e, -⟩ := link_ends hr h.hyp.lvl.reg q1.link.adj q1.link.lev
    have sF' := hfFs_spin h.hyp.hI hf.spin q1.link.mem
    rw [zee_fullName h3.subInv q3 g2.1.hF g2.1.hM q4, g2.2.1, e]
    intro hc
    exact q1.link.ne (zeeText_inj sF'.isHalfInt sFs.isHalfInt (zMs_half sF' q1.mem) (zMs_half sFs h.mem) hc).1
  simp only [decide_eq_decide]
  rcases u2 with u | u
  · rw [u]; simp [na]
  · rw [u]; simp [nb, u1]

/-- C109: the branching ratios of a Zeeman level are those of its level, each divided among the Zeeman levels that the transition ends
on; the share of `(F', m')` is `(2J+1)(2F+1)(2F'+1)` times the square of the 6j symbol times the square of the 3j symbol. -/
theorem C109_branching {W : Wig} (hW : W.Good) {w : World} (hr : Reachable w) {i : Nat} {J F m : ℚ} (h : ZeReady w i J F m)
    (hd : ZRadiates w i J F m) (hA : ∃ u t a, Decay w (w.lname i) i u t ∧ (w.tr t).A = some a ∧ a ≠ 0) {H : Rows HTr} (hH : H.Fits w i F)
    {Z : Rows ZTr} (hZ : Z.ZFits w i J F m) :
    ∃ w' d d0, zeeBranching W H Z (zeeText (w.lname i) F m) w = (w', .ok d) ∧ branching (w.lname i) w = (w, .ok d0) ∧ d.keys.Nodup ∧
      (∀ n ∈ d.keys, ∃ u j J' F' m', u ∈ d0.keys ∧ w.g.lev u = some j ∧ (w.lv j).term.J = some J' ∧ F' ∈ hfFs w.I J' ∧ m' ∈ zMs F' ∧
        n = zeeText u F' m') ∧
      (∀ v ∈ d.vals, ∃ r, v = some r ∧ 0 ≤ r ∧ r ≤ 1) ∧ (d.vals.map (fun v => v.getD 0)).sum = 1 ∧
      ∀ u t j J' r, Decay w (w.lname i) i u t → w.g.lev u = some j → (w.lv j).term.J = some J' → d0.get? u = some (some r) →
        ((hfFs w.I J').map (fun F' => ((zMs F').map (fun m' => shareOf d (zeeText u F' m'))).sum)).sum = r ∧
        ∀ F' ∈ hfFs w.I J', ∀ m' ∈ zMs F', shareOf d (zeeText u F' m') =
          r * (((2 * J + 1) * (2 * F + 1) * (2 * F' + 1) : ℚ) * six J J' 1 F' F w.I ^ 2 *
            (([-1, 0, 1] : List ℚ).map (fun q => three F 1 F' (-m) q m' ^ 2)).sum) := by
  obtain ⟨w', H', Z', d, a0, k0, h1, h2, h3, h4, h5, h6, h7, h8, h9, h10, h11⟩ := linkedZee_spec hW hr h hH hZ
  obtain ⟨l, l1, l2, l3⟩ := branching_eq hr (h.hyp.lvl.plain h.hyp.ali) h.hyp.lvl.reg (fun n t q => (hd.rate n t q).imp fun _ q => q.1)
  have hp := zdowns_perm hr h hd h2 h3 h4 h5 h6 h7 h8 l1 l2
  have sFs := hfFs_spin h.hyp.hI h.hyp.lvl.spin h.hyp.mem
  have e := zee_downs hr h hd.dir h2 h3 h4 h5 h6 h7
  -- the totals
  have sF := sFs.nonneg
  have sJ := h.hyp.lvl.spin.nonneg
  have pJ : (0 : ℝ) < ((2 * J + 1 : ℚ) : ℝ) := by
    have : (0 : ℚ) < 2 * J + 1 := by linarith
    exact_mod_cast this
  have hs : (l.map (fun p => rateOf w p.2)).sum = (((l.map (fun p => ((w.tr p.2).A).getD 0)).sum : ℚ) : ℝ) := by
    rw [Rat.cast_list_sum, List.map_map]; rfl
  have hos := zouts_sum h hd (l := l) (fun m t => (l2 m t).1)
  rw [hs] at hos
  set tot := (l.map (fun p => ((w.tr p.2).A).getD 0)).sum with htot
  have hnn : ∀ a ∈ l.map (fun p => ((w.tr p.2).A).getD 0), 0 ≤ a := by
    intro a ha
    obtain ⟨⟨n, t⟩, hm, rfl⟩ := List.mem_map.1 ha
    obtain ⟨a, ha, h0⟩ := hd.rate n t ((l2 n t).1 hm)
    simp only [ha, Option.getD_some]; exact h0
  have tpos : 0 < tot := by
    obtain ⟨u, t, a, hdec, ha, hne⟩ := hA
    have hmem : a ∈ l.map (fun p => ((w.tr p.2).A).getD 0) := List.mem_map.2 ⟨(u, t), (l2 u t).2 hdec, by simp [ha]⟩
    exact lt_of_lt_of_le (lt_of_le_of_ne (hnn a hmem) (Ne.symm hne)) (List.single_le_sum hnn a hmem)
  have tpos' : (0 : ℝ) < ((tot : ℚ) : ℝ) := by exact_mod_cast tpos
  have onn : ∀ a ∈ (zouts w J F m l).map (·.2), 0 ≤ a := by
    intro a ha
    obtain ⟨⟨n, a⟩, hm, rfl⟩ := List.mem_map.1 ha
    obtain ⟨u, t, F', m', d1, d2, -, -, -, -, d5⟩ := mem_zouts.1 hm
    obtain ⟨a, ha, h0⟩ := hd.rate u t ((l2 u t).1 d1)
    obtain ⟨j, hj, hf⟩ := h.hyp.to ((l2 u t).1 d1)
    simp only at d5 ⊢
    rw [d5]
    refine mul_nonneg ?_ (zStr_nonneg _ _ _ _ _ _ sFs (hfFs_spin h.hyp.hI hf.spin d2))
    unfold rateOf
    rw [ha, Option.getD_some]
    exact_mod_cast h0
  have Tpos : 0 < ((tot : ℚ) : ℝ) * (1 / ((2 * J + 1 : ℚ) : ℝ)) := by positivity
  obtain ⟨D, c1, dkeys, dnod, dv, ds, dget, dnone⟩ := shares_ok hp (zouts_nodup h.hyp l1 l2) onn hos Tpos
  have hb : zeeBranching W H Z (zeeText (w.lname i) F m) w = (w', .ok D) := by
    unfold zeeBranching
    rw [PyM.bind_ok h1]
    simp only
    rw [PyM.bind_ok (show PyM.get w' = (w', .ok w') from rfl), e]
    unfold PyM.lift
    rw [c1]
  refine ⟨w', D, _, hb, l3, dnod, ?_, dv, ds, ?_⟩
  · intro n hn
    obtain ⟨⟨n, a⟩, hm, rfl⟩ := List.mem_map.1 (dkeys.mem_iff.1 hn)
    obtain ⟨u, t, F', m', d1, d2, -, d4, -, d6, -⟩ := mem_zouts.1 hm
    obtain ⟨j, hj, hf⟩ := h.hyp.to ((l2 u t).1 d1)
    refine ⟨u, j, Jof w u, F', m', ?_, hj, hf.hJ, d2, d4, d6⟩
    unfold Dict.keys
    rw [List.map_map]
    exact List.mem_map.2 ⟨(u, t), d1, rfl⟩
  · intro u t j J' r hdec hj hJ hr0
    obtain rfl := (Jof_eq hj hJ).symm
    obtain ⟨j', hj', hf⟩ := h.hyp.to hdec
    have hr1 : Dict.get? (l.map (fun p => (p.1, ratio (((w.tr p.2).A).getD 0) tot))) u = some (some (((w.tr t).A).getD 0 / tot)) := by
      apply Dict.get?_of_mem
      · unfold Dict.keys
        rw [List.map_map]
        exact l1
      · refine List.mem_map.2 ⟨(u, t), (l2 u t).2 hdec, ?_⟩
        unfold ratio
        rw [if_neg tpos.ne']
    rw [hr1] at hr0
    have hr0 : ((w.tr t).A).getD 0 / tot = r := Option.some.inj (Option.some.inj hr0)
    have hrR : ((r : ℚ) : ℝ) = rateOf w t / ((tot : ℚ) : ℝ) := by
      rw [← hr0]; unfold rateOf; push_cast; rfl
    obtain ⟨hdip, hc⟩ := hd.line u t j _ hdec hj hJ
    have val : ∀ F' ∈ hfFs w.I (Jof w u), ∀ m' ∈ zMs F', shareOf D (zeeText u F' m') =
        rateOf w t * zStr (w.tr t).allowed w.I J F m (Jof w u) F' m' * (((tot : ℚ) : ℝ) * (1 / ((2 * J + 1 : ℚ) : ℝ)))⁻¹ := by
      intro F' hF' m' hm'
      rw [← div_eq_mul_inv]
      have sF' := hfFs_spin h.hyp.hI hf.spin hF'
      by_cases hn : Near (w.tr t).allowed F F' ∧ Near (hTypes (w.tr t).allowed w.I J F (Jof w u) F') m m'
      · exact dget _ _ (mem_zouts.2 ⟨u, t, F', m', (l2 u t).2 hdec, hF', hn.1, hm', hn.2, rfl, rfl⟩)
      · have h0 : zStr (w.tr t).allowed w.I J F m (Jof w u) F' m' = 0 := by
          by_cases hn1 : Near (w.tr t).allowed F F'
          · exact zStr_near hdip _ _ _ (zMs_half sFs h.mem) (zMs_half sF' hm') (fun q => hn ⟨hn1, q⟩)
          · unfold zStr
            rw [hStrength_near sFs.isHalfInt sF'.isHalfInt hn1, zero_mul]
        rw [h0, mul_zero, zero_div]
        refine dnone _ (fun hm => ?_)
        obtain ⟨⟨n, a⟩, hm, hn'⟩ := List.mem_map.1 hm
        obtain ⟨u', t', F'', m'', d1, d2, d3, d4, d5, d6, -⟩ := mem_zouts.1 hm
        simp only at hn'
        rw [d6] at hn'
        obtain ⟨j2, hj2, hf2⟩ := h.hyp.to ((l2 u' t').1 d1)
        have sF'' := hfFs_spin h.hyp.hI hf2.spin d2
        obtain ⟨rfl, rfl, rfl⟩ := zeeText_inj sF''.isHalfInt sF'.isHalfInt (zMs_half sF'' d4) (zMs_half sF' hm') hn'
        obtain rfl : t' = t := Option.some.inj (((l2 _ t').1 d1).2.1.symm.trans hdec.2.1)
        exact hn ⟨d3, d5⟩
    constructor
    · rw [List.map_congr_left (fun F' hF' => congrArg List.sum (List.map_congr_left (val F' hF')))]
      simp only [List.sum_map_mul_right]
      rw [zouts_one h hd hdec, hrR]
      field_simp
    · intro F' hF' m' hm'
      rw [val F' hF' m' hm', zStr_dipole hdip, hrR]
      push_cast at pJ ⊢
      field_simp

/-! ## Witnesses -/

theorem oneAtom_ze : ZeReady oneAtom 0 1 0 0 where
  hyp := oneAtom_hf
  mem := by decide +kernel
  sub := by decide +kernel

/-- C107 fails: F = 0 is linked to F' = 0, to which no multipole couples it. -/
theorem C107_fails : ¬C107_full := by
  intro h
  obtain ⟨w', r, d, h1, h2⟩ := h exactWig exactWig_good oneAtom oneAtom_reachable 0 1 0 0 oneAtom_ze
  obtain ⟨w2, H2, Z2, d2, a0, k0, g1, -, -, -, -, g5, -⟩ := C107_listed_partial exactWig_good oneAtom_reachable oneAtom_ze
    (Rows.empty_fits oneAtom 0 0) (Rows.empty_zfits oneAtom 0 1 0 0)
  rw [h1] at g1
  simp only [Prod.mk.injEq, Except.ok.injEq] at g1
  obtain ⟨-, -, rfl⟩ := g1
  have hm := (g5 (zeeText (oneAtom.lname 1) 0 0)).2 ⟨oneAtom.lname 1, 0, 1, 1, 0, 0,
    ⟨⟨by decide +kernel, by decide +kernel, by decide +kernel, by decide +kernel, by decide +kernel, fun _ => by
      rw [sub_zero, abs_zero]; split <;> norm_num⟩, by decide +kernel, fun _ => by rw [sub_zero, abs_zero]; split <;> norm_num⟩, rfl⟩
  obtain ⟨u, t, j, J', F', m', q1, q2, q3, q4, q5, q5', q6, q7⟩ := (h2 _).1 hm
  obtain ⟨rfl, ⟨-, rfl⟩ | ⟨-, rfl⟩⟩ := two_nbr oneAtom_reachable (by decide +kernel) (by decide +kernel) (by decide +kernel) q2
  · have hJ : J' = 1 := by
      have e : oneAtom.g.lev (oneAtom.lname 1) = some 1 := by decide +kernel
      rw [e] at q3
      obtain rfl := Option.some.inj q3
      have e : (oneAtom.lv 1).term.J = some 1 := by decide +kernel
      rw [e] at q4
      exact (Option.some.inj q4).symm
    subst hJ
    have hs := hfFs_spin oneAtom_hf.hI ⟨2, by norm_num⟩ q5
    have half0 : IsHalfInt (0 : ℚ) := ⟨0, by norm_num⟩
    obtain ⟨-, rfl, rfl⟩ := zeeText_inj (F := 0) (m := 0) half0 hs.isHalfInt half0 (zMs_half hs q5') q7
    rcases q6 with ⟨-, h6, -⟩ | ⟨-, h6, -⟩
    · rw [← half_one] at h6
      have := (six_tri half0 half0 h6).2
      rw [half_one] at this
      norm_num at this
    · rw [← half_two] at h6
      have := (six_tri half0 half0 h6).2
      rw [half_two] at this
      norm_num at this
  · exact q1 rfl

theorem dAtom_ze : ZeReady dAtom 1 (3/2) 3 2 where
  hyp := dAtom_hf
  mem := by decide +kernel
  sub := by decide +kernel

theorem dAtom_zradiates : ZRadiates dAtom 1 (3/2) 3 2 :=
  dAtom_radiates.zee (by decide +kernel) (by
    intro u t hd
    obtain ⟨rfl, -⟩ := two_nbr dAtom_reachable (by decide +kernel) (by decide +kernel) (by decide +kernel) hd.2.1
    rw [dAtom_types]
    decide) 2

/-- C108 fails: F = 3, m = 2 of a J = 3/2 level with one line gets four times the lifetime of the level. -/
theorem C108_fails : ¬C108_full := by
  intro h
  obtain ⟨w', τ, h1, h2⟩ := h exactWig exactWig_good dAtom dAtom_reachable 1 (3/2) 3 2 dAtom_ze dAtom_zradiates
  obtain ⟨w2, τ2, g1, g2⟩ := C108_lifetime_partial exactWig_good dAtom_reachable dAtom_ze dAtom_zradiates (Rows.empty_fits dAtom 1 3)
    (Rows.empty_zfits dAtom 1 (3/2) 3 2)
  rw [h1] at g1
  rw [h2] at g2
  simp only [Prod.mk.injEq, Except.ok.injEq, true_and] at g1 g2
  obtain ⟨-, g1⟩ := g1
  subst g2
  obtain ⟨l, -, -, τ3, e1, e2, e3⟩ := C44_lifetime dAtom (dAtom.lname 1) 1 dAtom_reachable (dAtom_hf.lvl.plain dAtom_hf.ali) dAtom_hf.lvl.reg
    dAtom_zradiates.rate
  rw [h2] at e1
  simp only [Prod.mk.injEq, Except.ok.injEq, true_and] at e1
  subst e1
  cases τ with
  | inf => exact e2.1 rfl ⟨_, 0, 1, dAtom_decay, by decide +kernel, by norm_num⟩
  | sec x =>
    have hx := (e3 x rfl).1
    simp only [World.Time.scale, World.Time.sec.injEq] at g1
    push_cast at g1
    norm_num at g1
    linarith

/-- The hypotheses of C107-C109 in `dAtom`. -/
example : ZeReady dAtom 1 (3/2) 3 2 ∧ ZRadiates dAtom 1 (3/2) 3 2 ∧ (Rows.empty : Rows HTr).Fits dAtom 1 3 ∧
    (Rows.empty : Rows ZTr).ZFits dAtom 1 (3/2) 3 2 ∧
    (∃ u t a, Decay dAtom (dAtom.lname 1) 1 u t ∧ (dAtom.tr t).A = some a ∧ a ≠ 0) :=
  ⟨dAtom_ze, dAtom_zradiates, Rows.empty_fits _ _ _, Rows.empty_zfits _ _ _ _ _, ⟨_, 0, 1, dAtom_decay, by decide +kernel, by norm_num⟩⟩

/-- All of the decay of F = 3, m = 2 ends on the Zeeman levels of J' = 1/2. -/
example : ∃ w' d, zeeBranching exactWig Rows.empty Rows.empty (zeeText (dAtom.lname 1) 3 2) dAtom = (w', .ok d) ∧
    ((hfFs dAtom.I (1/2)).map (fun F' => ((zMs F').map (fun m' => shareOf d (zeeText (dAtom.lname 0) F' m'))).sum)).sum = 1 := by
  obtain ⟨w', d, d0, h1, h2, h3, -, -, -, h4⟩ := C109_branching exactWig_good dAtom_reachable dAtom_ze dAtom_zradiates
    ⟨_, 0, 1, dAtom_decay, by decide +kernel, by norm_num⟩ (Rows.empty_fits dAtom 1 3) (Rows.empty_zfits dAtom 1 (3/2) 3 2)
  refine ⟨w', d, h1, ?_⟩
  have hb : (branching (dAtom.lname 1) dAtom).2.map (fun d => d.get? (dAtom.lname 0)) = .ok (some (some 1)) := by decide +kernel
  rw [h2] at hb
  have hg : d0.get? (dAtom.lname 0) = some (some 1) := by simpa [Except.map] using hb
  have hs := (h4 _ 0 0 (1/2) 1 dAtom_decay (by decide +kernel) (by decide +kernel) hg).1
  simpa using hs

end AtomTk
