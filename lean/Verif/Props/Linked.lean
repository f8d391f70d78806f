import Verif.Proofs.Linked
import Verif.Props.SumRules
import Verif.Props.Derived
import Verif.Props.TransKeys

/-! # C100-C102: `linked_levels`, `state_lifetime` and `compute_branching_ratios` of hyperfine levels (atom.py:1086-1129) -/

namespace AtomTk
open Util World Strengths Racah

/-- How far apart the numbers of two linked sublevels may be: any distance for a transition without a type, 2 for E2 without
M1, else 1. -/
def Near (al : Types) (F F' : ℚ) : Prop := al.any = true → |F - F'| ≤ if al.2.2 = true ∧ al.2.1 = false then 2 else 1

theorem Near.symm {al : Types} {F F' : ℚ} (h : Near al F F') : Near al F' F := fun ha => by rw [abs_sub_comm]; exact h ha

theorem pairOk_near (al : Types) (F F' : ℚ) : pairOk al (some F) (some F') = .ok true ↔ Near al F F' := by
  obtain ⟨x, y, z⟩ := al
  unfold pairOk maxDelta Near
  cases x <;> cases y <;> cases z <;> simp [Types.any]

/-- The level named `n`, of number `j`, is linked to level `i` by the transition `t` and has a sublevel `F'` that is near `F`. -/
structure Link (w : World) (i : Nat) (F : ℚ) (n : Str) (t j : Nat) (J' F' : ℚ) : Prop where
  ne : n ≠ w.lname i
  adj : w.g.adj (w.lname i) n = some t
  lev : w.g.lev n = some j
  J : (w.lv j).term.J = some J'
  mem : F' ∈ hfFs w.I J'
  near : Near (w.tr t).allowed F F'

/-- The level `i` and the levels linked to it are registered under plain names, and the sublevel is not an alias. -/
structure HfReady (w : World) (i : Nat) (J F : ℚ) : Prop where
  hI : IsSpin w.I
  lvl : Findable w i J
  mem : F ∈ hfFs w.I J
  ali : w.lalias.get? (w.lname i) = none
  sub : w.lalias.get? (hypText (w.lname i) F) = none
  nbr : ∀ n t, n ≠ w.lname i → w.g.adj (w.lname i) n = some t → ∃ j J', w.g.lev n = some j ∧ Findable w j J'

/-- The row of the graph that the sublevel may have beforehand: none of its neighbours are strangers.  The empty graph is one. -/
def Rows.Fits (H : Rows HTr) (w : World) (i : Nat) (F : ℚ) : Prop :=
  (H (hypText (w.lname i) F)).keys.Nodup ∧
    ∀ n ∈ (H (hypText (w.lname i) F)).keys, ∃ m t j J' F', Link w i F m t j J' F' ∧ n = hypText m F'

theorem Rows.empty_fits (w : World) (i : Nat) (F : ℚ) : (Rows.empty : Rows HTr).Fits w i F := by
  unfold Rows.Fits Rows.empty
  simp [Dict.keys]

namespace World

/-- The transition from sublevel `a` of level `i` to sublevel `b` of the other level. -/
noncomputable def linkTr (w : World) (i t a b : Nat) (J F J' F' : ℚ) : HTr :=
  if (w.tr t).e1 = i then w.mkHTr t a b J F J' F' else w.mkHTr t b a J' F' J F

end World

theorem oth_pair {key n A B : Str} (h : A ≠ B) : Rows.oth key (A, B) = some n ↔ (key = A ∧ n = B) ∨ (key = B ∧ n = A) := by
  unfold Rows.oth
  by_cases h1 : key = A
  · subst h1
    simp [h, eq_comm]
  · by_cases h2 : key = B
    · subst h2
      simp [h1, eq_comm]
    · simp [h1, h2]

theorem oth_hEnds {w : World} {t a b : Nat} {J1 F1 J2 F2 : ℚ} {key n : Str} (h : w.hFull a ≠ w.hFull b) :
    Rows.oth key (w.hEnds (w.mkHTr t a b J1 F1 J2 F2)) = some n ↔
      (key = w.hFull a ∧ n = w.hFull b) ∨ (key = w.hFull b ∧ n = w.hFull a) := by
  unfold hEnds mkHTr
  simp only
  split
  · exact oth_pair h
  · rw [oth_pair h.symm, or_comm]

theorem Link.frame {w w' : World} {i t j : Nat} {n : Str} {F J' F' : ℚ} (h : LFrame w w') : Link w' i F n t j J' F' ↔ Link w i F n t j J' F' := by
  constructor
  · intro l
    have a := l.ne; have b := l.adj; have c := l.lev; have d := l.J; have e := l.mem; have f := l.near
    rw [h.lname] at a; rw [h.g, h.lname] at b; rw [h.g] at c; rw [h.term] at d; rw [h.I] at e; rw [h.tr] at f
    exact ⟨a, b, c, d, e, f⟩
  · intro l
    exact ⟨by rw [h.lname]; exact l.ne, by rw [h.g, h.lname]; exact l.adj, by rw [h.g]; exact l.lev, by rw [h.term]; exact l.J,
      by rw [h.I]; exact l.mem, by rw [h.tr]; exact l.near⟩

theorem HfReady.frame {w w' : World} {i : Nat} {J F : ℚ} (h : HfReady w i J F) (l : LFrame w w') : HfReady w' i J F := by
  refine ⟨by rw [l.I]; exact h.hI, (h.lvl.keep l).1, by rw [l.I]; exact h.mem, by rw [l.lalias, l.lname]; exact h.ali,
    by rw [l.lalias, l.lname]; exact h.sub, fun n t h1 h2 => ?_⟩
  rw [l.lname] at h1; rw [l.g, l.lname] at h2
  obtain ⟨j, J', h3, h4⟩ := h.nbr n t h1 h2
  exact ⟨j, J', by rw [l.g]; exact h3, (h4.keep l).1⟩

/-- The ends of a link. -/
theorem link_ends {w : World} (hr : Reachable w) {i t : Nat} {n : Str} (hi : w.g.lev (w.lname i) = some i) (ha : w.g.adj (w.lname i) n = some t)
    {j : Nat} (hj : w.g.lev n = some j) : w.lname j = n ∧ (((w.tr t).e1 = i ∧ (w.tr t).e2 = j) ∨ ((w.tr t).e1 = j ∧ (w.tr t).e2 = i)) := by
  obtain ⟨_, _, h3, h4, h5, h6⟩ := hr.wf.edge _ _ _ ha
  have hn := (hr.wf.node _ _ hj).1
  refine ⟨hn, ?_⟩
  rcases h5 with ⟨a, b⟩ | ⟨a, b⟩
  · rw [← a, hi] at h3
    rw [← b, hj] at h4
    have e1 := Option.some.inj h3; have e2 := Option.some.inj h4
    rcases h6 with ⟨c, d⟩ | ⟨c, d⟩
    · exact .inl ⟨c.trans e1.symm, d.trans e2.symm⟩
    · exact .inr ⟨c.trans e2.symm, d.trans e1.symm⟩
  · rw [← a, hi] at h4
    rw [← b, hj] at h3
    have e1 := Option.some.inj h4; have e2 := Option.some.inj h3
    rcases h6 with ⟨c, d⟩ | ⟨c, d⟩
    · exact .inr ⟨c.trans e2.symm, d.trans e1.symm⟩
    · exact .inl ⟨c.trans e1.symm, d.trans e2.symm⟩

theorem link_ready {w : World} (hr : Reachable w) {i : Nat} {J F : ℚ} (h : HfReady w i J F) {n : Str} {t : Nat} (hn : n ≠ w.lname i)
    (ha : w.g.adj (w.lname i) n = some t) : (∃ J1 J2, SubReady w t J1 J2) ∧ Apart w t := by
  obtain ⟨j, J', hj, hf⟩ := h.nbr n t hn ha
  obtain ⟨e, e12⟩ := link_ends hr h.lvl.reg ha hj
  have in1 := (hr.wf.node _ _ h.lvl.reg).2.1
  have in2 := (hr.wf.node _ _ hj).2.1
  have hne : w.lname i ≠ w.lname j := by rw [e]; exact hn.symm
  rcases e12 with ⟨e1, e2⟩ | ⟨e1, e2⟩
  · refine ⟨⟨J, J', h.hI, ?_, ?_, ?_, ?_, h.lvl.spin, hf.spin, ?_, ?_⟩, ⟨?_, ?_, ?_⟩⟩ <;> simp only [e1, e2]
    exacts [in1, in2, h.lvl.hJ, hf.hJ, h.lvl.hF, hf.hF, hne, h.lvl.hM, hf.hM]
  · refine ⟨⟨J', J, h.hI, ?_, ?_, ?_, ?_, hf.spin, h.lvl.spin, ?_, ?_⟩, ⟨?_, ?_, ?_⟩⟩ <;> simp only [e1, e2]
    exacts [in2, in1, hf.hJ, h.lvl.hJ, hf.hF, h.lvl.hF, hne.symm, hf.hM, h.lvl.hM]

/-- The edges of the transition to one neighbour at the node of a sublevel. -/
theorem edge_link {w w2 : World} (hr : Reachable w) {i a0 : Nat} {J F : ℚ} (h : HfReady w i J F) (l : LFrame w w2) (hi : SubInv w2)
    (h0 : IsHyp w2 i J a0 F) {m : Str} {t j : Nat} (hm : m ≠ w.lname i) (ha : w.g.adj (w.lname i) m = some t) (hj : w.g.lev m = some j)
    (n : Str) (x : HTr) : HEdge' w2 (hypText (w.lname i) F) t n x ↔
      ∃ J' F' b, Link w i F m t j J' F' ∧ n = hypText m F' ∧ IsHyp w2 j J' b F' ∧ x = w2.linkTr i t a0 b J F J' F' := by
  obtain ⟨j', J', hj', hf⟩ := h.nbr m t hm ha
  obtain rfl : j' = j := by rw [hj] at hj'; exact (Option.some.inj hj').symm
  obtain ⟨e, e12⟩ := link_ends hr h.lvl.reg ha hj
  have f2 := hf.keep l
  have i2 := h.lvl.keep l
  have hne : w2.lname i ≠ w2.lname j' := by rw [f2.2.1, i2.2.1, e]; exact hm.symm
  have hij : j' ≠ i := by rintro rfl; exact hne rfl
  have hI2 : IsSpin w2.I := by rw [l.I]; exact h.hI
  have nm : ∀ {b : Nat} {F' : ℚ}, IsHyp w2 j' J' b F' → w2.hFull b = hypText m F' := fun hb => by
    rw [hyp_fullName hi hb f2.1.hF f2.1.hM, f2.2.1, e]
  have ni : ∀ {b : Nat} {F' : ℚ}, IsHyp w2 i J b F' → w2.hFull b = hypText (w.lname i) F' := fun hb => by
    rw [hyp_fullName hi hb i2.1.hF i2.1.hM, i2.2.1]
  have sI : ∀ {b : Nat} {F' : ℚ}, IsHyp w2 i J b F' → IsHalfInt F' := fun hb => (hfFs_spin hI2 h.lvl.spin hb.mem).isHalfInt
  have sJ : ∀ {b : Nat} {F' : ℚ}, IsHyp w2 j' J' b F' → IsHalfInt F' := fun hb => (hfFs_spin hI2 hf.spin hb.mem).isHalfInt
  have ne2 : ∀ {a b : Nat} {F1 F2 : ℚ}, IsHyp w2 i J a F1 → IsHyp w2 j' J' b F2 → w2.hFull a ≠ w2.hFull b := by
    intro a b F1 F2 p q hc
    rw [ni p, nm q] at hc
    exact hm (hypText_inj (sI p) (sJ q) hc).1.symm
  -- the other end of an edge at the node
  have ext : ∀ {a b : Nat} {F1 F2 : ℚ} {y : Str}, IsHyp w2 i J a F1 → IsHyp w2 j' J' b F2 →
      (((hypText (w.lname i) F = w2.hFull a ∧ y = w2.hFull b) ∨ (hypText (w.lname i) F = w2.hFull b ∧ y = w2.hFull a)) ↔
        (F1 = F ∧ a = a0 ∧ y = hypText m F2)) := by
    intro a b F1 F2 y p q
    rw [ni p, nm q]
    constructor
    · rintro (⟨h1, h2⟩ | ⟨h1, h2⟩)
      · obtain ⟨-, h3⟩ := hypText_inj (sI h0) (sI p) h1
        subst h3
        exact ⟨rfl, p.unique h0, h2⟩
      · exact absurd (hypText_inj (sI h0) (sJ q) h1).1.symm hm
    · rintro ⟨h1, -, h3⟩
      exact .inl ⟨by rw [h1], h3⟩
  have lk : ∀ {b : Nat} {F' : ℚ}, IsHyp w2 j' J' b F' → (pairOk (w2.tr t).allowed (some F) (some F') = .ok true ↔ Link w i F m t j' J' F') := by
    intro b F' hb
    rw [pairOk_near, l.tr]
    refine ⟨fun hn => ⟨hm, ha, hj, hf.hJ, by rw [← l.I]; exact hb.mem, hn⟩, fun hl => hl.near⟩
  constructor
  · rintro ⟨K1, K2, hk, a, b, F1, F2, p1, p2, p3, rfl, p5⟩
    rcases e12 with ⟨e1, e2⟩ | ⟨e1, e2⟩
    · rw [l.tr, e1] at p1; rw [l.tr, e2] at p2
      have k1 := hk.hJ1; have k2 := hk.hJ2
      rw [l.tr, e1, i2.1.hJ] at k1; rw [l.tr, e2, f2.1.hJ] at k2
      obtain rfl := Option.some.inj k1; obtain rfl := Option.some.inj k2
      obtain ⟨rfl, rfl, rfl⟩ := (ext p1 p2).1 ((oth_hEnds (ne2 p1 p2)).1 p5)
      refine ⟨_, F2, b, (lk p2).1 p3, rfl, p2, ?_⟩
      unfold linkTr
      rw [if_pos (by rw [l.tr]; exact e1)]
    · rw [l.tr, e1] at p1; rw [l.tr, e2] at p2
      have k1 := hk.hJ1; have k2 := hk.hJ2
      rw [l.tr, e1, f2.1.hJ] at k1; rw [l.tr, e2, i2.1.hJ] at k2
      obtain rfl := Option.some.inj k1; obtain rfl := Option.some.inj k2
      obtain ⟨rfl, rfl, rfl⟩ := (ext p2 p1).1 (((oth_hEnds (ne2 p2 p1).symm).1 p5).symm)
      refine ⟨_, F1, a, (lk p1).1 ?_, rfl, p1, ?_⟩
      · rw [pairOk_near] at p3 ⊢
        exact p3.symm
      · unfold linkTr
        rw [if_neg (by rw [l.tr, e1]; exact hij)]
  · rintro ⟨K, F', b, hl, rfl, hb, rfl⟩
    obtain rfl : K = J' := Option.some.inj (hl.J.symm.trans hf.hJ)
    have hp := (lk hb).2 hl
    obtain ⟨⟨K1, K2, hk⟩, -⟩ := link_ready hr h hm ha
    have hk2 := hk.frame l
    rcases e12 with ⟨e1, e2⟩ | ⟨e1, e2⟩
    · have k1 := hk.hJ1; have k2 := hk.hJ2
      rw [e1, h.lvl.hJ] at k1; rw [e2, hf.hJ] at k2
      obtain rfl := Option.some.inj k1; obtain rfl := Option.some.inj k2
      refine ⟨_, _, hk2, a0, b, F, F', by rw [l.tr, e1]; exact h0, by rw [l.tr, e2]; exact hb, hp, ?_, ?_⟩
      · unfold linkTr
        rw [if_pos (by rw [l.tr]; exact e1)]
      · unfold linkTr
        rw [if_pos (by rw [l.tr]; exact e1)]
        exact (oth_hEnds (ne2 h0 hb)).2 ((ext h0 hb).2 ⟨rfl, rfl, rfl⟩)
    · have k1 := hk.hJ1; have k2 := hk.hJ2
      rw [e1, hf.hJ] at k1; rw [e2, h.lvl.hJ] at k2
      obtain rfl := Option.some.inj k1; obtain rfl := Option.some.inj k2
      refine ⟨_, _, hk2, b, a0, F', F, by rw [l.tr, e1]; exact hb, by rw [l.tr, e2]; exact h0, ?_, ?_, ?_⟩
      · rw [pairOk_near] at hp ⊢
        exact hp.symm
      · unfold linkTr
        rw [if_neg (by rw [l.tr, e1]; exact hij)]
      · unfold linkTr
        rw [if_neg (by rw [l.tr, e1]; exact hij)]
        exact (oth_hEnds (ne2 h0 hb).symm).2 ((ext h0 hb).2 ⟨rfl, rfl, rfl⟩).symm

/-- Looking up a hyperfine level by name. -/
theorem levelsGet_sub {w : World} (hr : Reachable w) {i : Nat} {J F : ℚ} (h : HfReady w i J F) :
    ∃ w1 a0, levelsGet (hypText (w.lname i) F) w = (w1, .ok (.hyp a0)) ∧ Reachable w1 ∧ LFrame w w1 ∧ IsHyp w1 i J a0 F ∧
      ((w.lv i).subs ≠ [] → w1 = w) := by
  have hFs := hfFs_spin h.hI h.lvl.spin h.mem
  have hin := (hr.wf.node _ _ h.lvl.reg).2.1
  obtain ⟨w1, j, h1, h2, h3⟩ := lvItem_ok hr.keysInv h.hI hin h.lvl.hJ h.lvl.spin h.lvl.hF h.mem
  have get1 : levelsGet (hypText (w.lname i) F) w = (w1, .ok (.hyp j)) := by
    rw [levelsGet_hyp hr.wf.gok.nodup h.lvl.clean h.lvl.reg hFs.isHalfInt h.sub, h1]
  obtain ⟨hr1, l1⟩ := levelsGet_reach hr get1
  have f1 := (h.lvl.keep l1).1
  have hI1 : IsSpin w1.I := by rw [l1.I]; exact h.hI
  have hk : (w1.lv i).subs.keys = (hfFs w1.I J).map fKey := by
    rcases hr1.subInv.keys.hf hI1 i J f1.hJ f1.spin f1.hF with h0 | h0
    · rw [h0] at h2; cases h2
    · exact h0
  obtain ⟨j', hj'⟩ := hyp_all hr1.subInv f1.hJ hI1 f1.spin f1.hF hk (by rw [l1.I]; exact h.mem)
  have : j' = j := by
    have := hj'.get
    rw [h2] at this
    exact (Option.some.inj this).symm
  subst this
  exact ⟨w1, j', get1, hr1, l1, hj', h3⟩

theorem keys_get_none {κ α : Type} [DecidableEq κ] {d : Dict κ α} {k : κ} (h : k ∉ d.keys) : d.get? k = none := by
  rw [Dict.get?_none]; exact h

/-- What `linked_levels` returns for a hyperfine level, and what it leaves alone. -/
theorem linkedHyp_full {W : Wig} (hW : W.Good) {w : World} (hr : Reachable w) {i : Nat} {J F : ℚ} (h : HfReady w i J F) {H : Rows HTr}
    (hH : H.Fits w i F) : ∃ w' H' d a0, linkedHyp W H (hypText (w.lname i) F) w = (w', .ok (H', d)) ∧ LFrame w w' ∧ Reachable w' ∧
      IsHyp w' i J a0 F ∧ d.keys.Nodup ∧
      (∀ n x, d.get? n = some x ↔ ∃ m t j J' F' b, Link w i F m t j J' F' ∧ n = hypText m F' ∧ IsHyp w' j J' b F' ∧
        x = w'.linkTr i t a0 b J F J' F') ∧
      (∀ m t j J', m ≠ w.lname i → w.g.adj (w.lname i) m = some t → w.g.lev m = some j → (w.lv j).term.J = some J' →
        ∀ F' ∈ hfFs w.I J', ∃ b, IsHyp w' j J' b F') ∧
      levelsGet (hypText (w.lname i) F) w' = (w', .ok (.hyp a0)) ∧ H'.Fits w' i F ∧
      ((w.lv i).subs ≠ [] → PopKeep w w') := by
  obtain ⟨w1, a0, g1, hr1, l1, p1, same⟩ := levelsGet_sub hr h
  have h1 := h.frame l1
  have hp : Plain w1 (w1.lname i) := h1.lvl.plain h1.ali
  obtain ⟨d, d1, -, d3, d4⟩ := C42_neighbours_partial w1 (w1.lname i) i hr1 hp h1.lvl.reg
  have dn := linked_keys hr1 d1 hp h1.lvl.reg
  have dv : ∀ t, t ∈ d.vals ↔ ∃ m, m ≠ w1.lname i ∧ w1.g.adj (w1.lname i) m = some t := by
    intro t
    rw [Dict.mem_vals dn]
    exact exists_congr fun m => d3 m t
  obtain ⟨w2, H2, b1, rb, b2, b3, b4, b5, b6⟩ := hypEdgesAll_spec hW d.vals w1 H hr1.subInv (fun t ht => by
    obtain ⟨m, hm, ha⟩ := (dv t).1 ht
    exact link_ready hr1 h1 hm ha)
  have l2 := b2.frame
  have l := LFrame.trans _ _ _ l1 l2
  have p2 : IsHyp w2 i J a0 F := (b2.hyp hr1.subInv p1.pop h1.lvl.hJ h1.lvl.hF).2 p1
  have hname : w1.lname i = w.lname i := l1.lname i
  set key := hypText (w.lname i) F with hkey
  have nkey : w2.hFull a0 = key := by
    have f2 := (h.lvl.keep l).1
    rw [hyp_fullName b3 p2 f2.hF f2.hM, l.lname]
  have hnode : w2.hNode key = true := by
    unfold hNode
    rw [List.any_eq_true]
    exact ⟨a0, List.mem_range.2 p2.lt, by simp [nkey]⟩
  -- the edges at the node
  have edge : ∀ n x, (∃ t ∈ d.vals, HEdge' w2 key t n x) ↔ ∃ m t j J' F' b, Link w i F m t j J' F' ∧ n = hypText m F' ∧ IsHyp w2 j J' b F' ∧
      x = w2.linkTr i t a0 b J F J' F' := by
    intro n x
    constructor
    · rintro ⟨t, ht, hx⟩
      obtain ⟨m, hm, ha⟩ := (dv t).1 ht
      rw [hname] at hm; rw [l1.g, hname] at ha
      obtain ⟨j, J', hj, -⟩ := h.nbr m t hm ha
      obtain ⟨J', F', b, q⟩ := (edge_link hr h l b3 p2 hm ha hj n x).1 hx
      exact ⟨m, t, j, J', F', b, q⟩
    · rintro ⟨m, t, j, J', F', b, q⟩
      refine ⟨t, (dv t).2 ⟨m, by rw [hname]; exact q.1.ne, by rw [l1.g, hname]; exact q.1.adj⟩, ?_⟩
      exact (edge_link hr h l b3 p2 q.1.ne q.1.adj q.1.lev n x).2 ⟨J', F', b, q⟩
  have spin : ∀ {m t j J' F'}, Link w i F m t j J' F' → IsHalfInt F' := by
    intro m t j J' F' q
    obtain ⟨j', J'', hj, hf⟩ := h.nbr m t q.ne q.adj
    have e := q.lev
    rw [hj] at e
    obtain rfl := Option.some.inj e
    have e := q.J
    rw [hf.hJ] at e
    obtain rfl := Option.some.inj e
    exact (hfFs_spin h.hI hf.spin q.mem).isHalfInt
  have all : ∀ m t j J', m ≠ w.lname i → w.g.adj (w.lname i) m = some t → w.g.lev m = some j → (w.lv j).term.J = some J' →
      ∀ F' ∈ hfFs w.I J', ∃ b, IsHyp w2 j J' b F' := by
    intro m t j J' hm ha hj hJ F' hF'
    obtain ⟨j', J'', hj', hf⟩ := h.nbr m t hm ha
    rw [hj] at hj'
    obtain rfl := Option.some.inj hj'
    have e := hf.hJ
    rw [hJ] at e
    obtain rfl := Option.some.inj e
    obtain ⟨-, e12⟩ := link_ends hr h.lvl.reg ha hj
    have pop : (w2.lv j).subs ≠ [] := by
      obtain ⟨c1, c2⟩ := b4 t ((dv t).2 ⟨m, by rw [hname]; exact hm, by rw [l1.g, hname]; exact ha⟩)
      rw [l.tr] at c1 c2
      rcases e12 with ⟨e1, e2⟩ | ⟨e1, e2⟩
      · rw [e2] at c2; exact c2
      · rw [e1] at c1; exact c1
    have f2 := (hf.keep l).1
    have hI2 : IsSpin w2.I := by rw [l.I]; exact h.hI
    have hk : (w2.lv j).subs.keys = (hfFs w2.I J').map fKey := by
      rcases b3.keys.hf hI2 j J' f2.hJ f2.spin f2.hF with h0 | h0
      · exact absurd h0 pop
      · exact h0
    exact hyp_all b3 f2.hJ hI2 f2.spin f2.hF hk (by rw [l.I]; exact hF')
  have row : ∀ n x, (H2 key).get? n = some x ↔ ∃ m t j J' F' b, Link w i F m t j J' F' ∧ n = hypText m F' ∧ IsHyp w2 j J' b F' ∧
      x = w2.linkTr i t a0 b J F J' F' := by
    intro n x
    rcases b6 key n with ⟨t, ht, y, hy, hg⟩ | ⟨hno, hg⟩
    · obtain ⟨m, t', j, J', F', b, q1, q2, q3, q4⟩ := (edge n y).1 ⟨t, ht, hy⟩
      rw [hg]
      constructor
      · intro e
        rw [← Option.some.inj e]
        exact ⟨m, t', j, J', F', b, q1, q2, q3, q4⟩
      · rintro ⟨m1, t1, j1, J1, F1, b1, r1, r2, r3, r4⟩
        rw [q2] at r2
        obtain ⟨rfl, rfl⟩ := hypText_inj (spin q1) (spin r1) r2
        obtain rfl : t' = t1 := Option.some.inj (q1.adj.symm.trans r1.adj)
        obtain rfl : j = j1 := Option.some.inj (q1.lev.symm.trans r1.lev)
        obtain rfl : J' = J1 := Option.some.inj (q1.J.symm.trans r1.J)
        obtain rfl : b = b1 := q3.unique r3
        rw [q4, r4]
    · have none : (H2 key).get? n = none := by
        rw [hg]
        apply keys_get_none
        intro hmem
        obtain ⟨m, t, j, J', F', q1, q2⟩ := hH.2 n hmem
        obtain ⟨b, hb⟩ := all m t j J' q1.ne q1.adj q1.lev q1.J F' q1.mem
        obtain ⟨t', ht', he⟩ := (edge n _).2 ⟨m, t, j, J', F', b, q1, q2, hb, rfl⟩
        exact hno t' ht' _ he
      rw [none]
      constructor
      · intro e; cases e
      · intro q
        obtain ⟨t', ht', he⟩ := (edge n x).2 q
        exact absurd he (hno t' ht' _)
  have rn : (H2 key).keys.Nodup := b5 key hH.1
  have self : ∀ n x, (H2 key).get? n = some x → n ≠ key := by
    intro n x hx e
    obtain ⟨m, t, j, J', F', b, q1, q2, -, -⟩ := (row n x).1 hx
    rw [q2] at e
    exact q1.ne (hypText_inj (spin q1) (hfFs_spin h.hI h.lvl.spin h.mem).isHalfInt e).1
  refine ⟨w2, H2, (H2 key).filter (fun p => p.1 ≠ key), a0, ?_, l, rb hr1, p2, (List.filter_sublist.map _).nodup rn, ?_, all, ?_, ?_, fun hs => by
    rw [same hs] at b2; exact b2⟩
  · unfold linkedHyp
    rw [PyM.bind_ok g1, PyM.bind_ok (show PyM.get w1 = (w1, .ok w1) from rfl)]
    simp only
    rw [p1.par, PyM.bind_ok d1, PyM.bind_ok b1, PyM.bind_ok (show PyM.get w2 = (w2, .ok w2) from rfl), if_pos hnode]
    rfl
  · intro n x
    rw [Dict.get?_filter (fun k => decide (k ≠ key)), ← row n x]
    constructor
    · intro e
      split at e
      · exact e
      · cases e
    · intro e
      rw [if_pos (by simpa using self n x e)]
      exact e
  · have h2 := h.frame l
    have hl : levelsGet (hypText (w2.lname i) F) w2 = lvItem i (fKey F) w2 :=
      levelsGet_hyp (by rw [l.g]; exact hr.wf.gok.nodup) h2.lvl.clean h2.lvl.reg (hfFs_spin h.hI h.lvl.spin h.mem).isHalfInt h2.sub
    rw [l.lname] at hl
    rw [hkey, hl]
    have hin : (w2.lv i).inAtom = true := by rw [l.inAtom]; exact (hr.wf.node _ _ h.lvl.reg).2.1
    obtain ⟨w3, j, c1, c2, c3⟩ := lvItem_ok b3.keys h2.hI hin h2.lvl.hJ h2.lvl.spin h2.lvl.hF h2.mem
    obtain rfl := c3 p2.pop
    rw [p2.get] at c2
    rw [c1, Option.some.inj c2]
  · unfold Rows.Fits
    rw [l.lname]
    refine ⟨rn, fun n hn => ?_⟩
    obtain ⟨x, hx⟩ := (Dict.get?_isSome _ n).2 hn
    obtain ⟨m, t, j, J', F', b, q1, q2, -, -⟩ := (row n x).1 hx
    exact ⟨m, t, j, J', F', (Link.frame l).2 q1, q2⟩

/-- What `linked_levels` returns for a hyperfine level. -/
theorem linkedHyp_spec {W : Wig} (hW : W.Good) {w : World} (hr : Reachable w) {i : Nat} {J F : ℚ} (h : HfReady w i J F) {H : Rows HTr}
    (hH : H.Fits w i F) : ∃ w' H' d a0, linkedHyp W H (hypText (w.lname i) F) w = (w', .ok (H', d)) ∧ LFrame w w' ∧ Reachable w' ∧
      IsHyp w' i J a0 F ∧ d.keys.Nodup ∧
      (∀ n x, d.get? n = some x ↔ ∃ m t j J' F' b, Link w i F m t j J' F' ∧ n = hypText m F' ∧ IsHyp w' j J' b F' ∧
        x = w'.linkTr i t a0 b J F J' F') ∧
      (∀ m t j J', m ≠ w.lname i → w.g.adj (w.lname i) m = some t → w.g.lev m = some j → (w.lv j).term.J = some J' →
        ∀ F' ∈ hfFs w.I J', ∃ b, IsHyp w' j J' b F') ∧
      levelsGet (hypText (w.lname i) F) w' = (w', .ok (.hyp a0)) ∧ H'.Fits w' i F := by
  obtain ⟨w', H', d, a0, h1, h2, h3, h4, h5, h6, h7, h8, h9, -⟩ := linkedHyp_full hW hr h hH
  exact ⟨w', H', d, a0, h1, h2, h3, h4, h5, h6, h7, h8, h9⟩

/-! ## Rates out of a hyperfine level -/

theorem hStrength_symm (al : Types) (I J F J' F' : ℚ) : hStrength al I J' F' J F = hStrength al I J F J' F' := by
  unfold hStrength
  rw [six_swap J' F' J F I 1, six_swap J' F' J F I 2, mul_comm (2 * F' + 1) (2 * F + 1)]

/-- A strength that is not zero belongs to a pair that is looked at. -/
theorem hStrength_near {al : Types} {I J F J' F' : ℚ} (hF : IsHalfInt F) (hF' : IsHalfInt F') (h : ¬Near al F F') :
    hStrength al I J F J' F' = 0 := by
  by_contra hs
  apply h
  intro ha
  obtain ⟨x, y, z⟩ := al
  unfold hStrength at hs
  simp only at hs ⊢
  by_cases h1 : (x || y) = true
  · rw [if_pos h1] at hs
    have h6 : six J J' 1 F' F I ≠ 0 := fun h => hs (by rw [h]; ring)
    rw [← half_one] at h6
    have := (six_tri hF hF' h6).1
    rw [half_one] at this
    split <;> linarith
  · rw [if_neg h1] at hs
    have h2 : z = true := by
      simp only [Types.any, h1, Bool.false_or] at ha; exact ha
    rw [if_pos h2] at hs
    have h6 : six J J' 2 F' F I ≠ 0 := fun h => hs (by rw [h]; ring)
    rw [← half_two] at h6
    have := (six_tri hF hF' h6).1
    rw [half_two] at this
    have hy : y = false := by cases x <;> cases y <;> simp_all
    rw [if_pos ⟨h2, hy⟩]
    exact this

/-- The sum rule of C96 with the triangle rule of the leading multipole. -/
theorem hStrength_sum {al : Types} {I J J' F : ℚ} (hI : IsSpin I) (hJ : IsSpin J) (hJ' : IsSpin J') (hany : al.any = true)
    (hc : Couples J J' (leading al)) (hF : F ∈ hfFs I J) :
    ((hfFs I J').map (fun F' => hStrength al I J F J' F')).sum = ((2 * F + 1 : ℚ) : ℝ) / ((2 * J + 1 : ℚ) : ℝ) := by
  obtain ⟨f, rfl⟩ := spin_nat_half (hfFs_spin hI hJ hF)
  obtain ⟨i, rfl⟩ := spin_nat_half hI
  obtain ⟨j, rfl⟩ := spin_nat_half hJ
  obtain ⟨j', rfl⟩ := spin_nat_half hJ'
  have hk : ((leading al : ℕ) : ℚ) = half ((2 * leading al : ℕ) : ℤ) := by unfold half; push_cast; ring
  rw [hk] at hc
  have ht := couples_tri.1 hc
  simp only [hStrength_leading al hany]
  rw [List.sum_map_mul_left, six_sum_gen i j j' _ f ((mem_hfFs_tri i j f).1 hF) ht.swap, mul_one_div]

/-- The transitions of level `i` keep their direction at the sublevel `F`, the ones down have a rate and a type that the numbers
J allow. -/
structure Radiates (w : World) (i : Nat) (J F : ℚ) : Prop where
  rate : ∀ m t, Decay w (w.lname i) i m t → ∃ a, (w.tr t).A = some a ∧ 0 ≤ a
  line : ∀ m t j J', Decay w (w.lname i) i m t → w.g.lev m = some j → (w.lv j).term.J = some J' →
    Types.any (w.tr t).allowed = true ∧ Couples J J' (leading (w.tr t).allowed)
  down : ∀ m t j J', Decay w (w.lname i) i m t → w.g.lev m = some j → (w.lv j).term.J = some J' → ∀ F' ∈ hfFs w.I J',
    w.hypE j J' F' < w.hypE i J F
  up : ∀ m t j J', m ≠ w.lname i → w.g.adj (w.lname i) m = some t → (w.tr t).upper ≠ i → w.g.lev m = some j → (w.lv j).term.J = some J' →
    ∀ F' ∈ hfFs w.I J', w.hypE i J F < w.hypE j J' F'

/-- The transitions of level `i` keep their direction at the sublevel `F`. -/
structure Directed (w : World) (i : Nat) (J F : ℚ) : Prop where
  down : ∀ m t j J', Decay w (w.lname i) i m t → w.g.lev m = some j → (w.lv j).term.J = some J' → ∀ F' ∈ hfFs w.I J',
    w.hypE j J' F' < w.hypE i J F
  up : ∀ m t j J', m ≠ w.lname i → w.g.adj (w.lname i) m = some t → (w.tr t).upper ≠ i → w.g.lev m = some j → (w.lv j).term.J = some J' →
    ∀ F' ∈ hfFs w.I J', w.hypE i J F < w.hypE j J' F'

theorem Radiates.dir {w : World} {i : Nat} {J F : ℚ} (h : Radiates w i J F) : Directed w i J F := ⟨h.down, h.up⟩

/-- The rate of a transition in Hz. -/
noncomputable def rateOf (w : World) (t : Nat) : ℝ := (((w.tr t).A).getD 0 : ℚ)

/-- The number J of the level named `m`. -/
def Jof (w : World) (m : Str) : ℚ := ((w.lv ((w.g.lev m).getD 0)).term.J).getD 0

open Classical in
/-- The hyperfine levels below and the rates to them. -/
noncomputable def outs (w : World) (J F : ℚ) (l : Dict Str Nat) : Dict Str ℝ := l.flatMap (fun p =>
  ((hfFs w.I (Jof w p.1)).filter (fun F' => Near (w.tr p.2).allowed F F')).map (fun F' =>
    (hypText p.1 F', rateOf w p.2 * hStrength (w.tr p.2).allowed w.I J F (Jof w p.1) F')))

theorem linkTr_A (w : World) (i t a b : Nat) (J F J' F' : ℚ) :
    (w.linkTr i t a b J F J' F').A = (w.tr t).A.map (fun A => (A : ℝ) * hStrength (w.tr t).allowed w.I J F J' F') := by
  unfold linkTr
  split
  · rfl
  · unfold mkHTr
    simp only [hStrength_symm]

theorem linkTr_upper {w w2 : World} (hr : Reachable w) {i a0 b : Nat} {J F : ℚ} (h : HfReady w i J F) (hd : Directed w i J F) (l : LFrame w w2)
    (h0 : IsHyp w2 i J a0 F) {m : Str} {t j : Nat} {J' F' : ℚ} (q : Link w i F m t j J' F') (hb : IsHyp w2 j J' b F') :
    b ≠ a0 ∧ ((w2.linkTr i t a0 b J F J' F').upper = a0 ∨ (w2.linkTr i t a0 b J F J' F').upper = b) ∧
      ((w2.linkTr i t a0 b J F J' F').upper = a0 ↔ (w.tr t).upper = i) := by
  obtain ⟨e, e12⟩ := link_ends hr h.lvl.reg q.adj q.lev
  have hij : j ≠ i := by rintro rfl; exact q.ne e.symm
  have hba : b ≠ a0 := by
    rintro rfl
    exact hij (hb.par.symm.trans h0.par)
  refine ⟨hba, ?_⟩
  have hE : (w.tr t).upper = i → w2.hypE j J' F' < w2.hypE i J F := fun hu => by
    rw [l.hypE, l.hypE]
    exact hd.down m t j J' ⟨q.ne, q.adj, hu⟩ q.lev q.J F' q.mem
  have hE' : (w.tr t).upper ≠ i → w2.hypE i J F < w2.hypE j J' F' := fun hu => by
    rw [l.hypE, l.hypE]
    exact hd.up m t j J' q.ne q.adj hu q.lev q.J F' q.mem
  rcases e12 with ⟨e1, e2⟩ | ⟨e1, e2⟩
  · unfold linkTr
    rw [if_pos (by rw [l.tr]; exact e1)]
    unfold mkHTr
    simp only [l.tr, e1, e2]
    by_cases hu : (w.tr t).upper = i
    · have := hE hu
      simp [not_lt_of_gt this, hu]
    · have := hE' hu
      simp [this, hu, hba]
  · unfold linkTr
    rw [if_neg (by rw [l.tr, e1]; exact hij)]
    unfold mkHTr
    simp only [l.tr, e1, e2]
    by_cases hu : (w.tr t).upper = i
    · have := hE hu
      simp [this, hu]
    · have := hE' hu
      simp [not_lt_of_gt this, hu, hba]

theorem Jof_eq {w : World} {m : Str} {j : Nat} {J' : ℚ} (h : w.g.lev m = some j) (hJ : (w.lv j).term.J = some J') : Jof w m = J' := by
  unfold Jof
  rw [h, Option.getD_some, hJ, Option.getD_some]

/-- The neighbours of a level with their numbers. -/
theorem HfReady.to {w : World} {i : Nat} {J F : ℚ} (h : HfReady w i J F) {m : Str} {t : Nat} (hd : Decay w (w.lname i) i m t) :
    ∃ j, w.g.lev m = some j ∧ Findable w j (Jof w m) := by
  obtain ⟨j, J', h1, h2⟩ := h.nbr m t hd.1 hd.2.1
  refine ⟨j, h1, ?_⟩
  rw [Jof_eq h1 h2.hJ]
  exact h2

theorem mem_outs {w : World} {J F : ℚ} {l : Dict Str Nat} {n : Str} {a : ℝ} : (n, a) ∈ outs w J F l ↔
    ∃ m t F', (m, t) ∈ l ∧ F' ∈ hfFs w.I (Jof w m) ∧ Near (w.tr t).allowed F F' ∧ n = hypText m F' ∧
      a = rateOf w t * hStrength (w.tr t).allowed w.I J F (Jof w m) F' := by
  unfold outs
  simp only [List.mem_flatMap, List.mem_map, List.mem_filter, decide_eq_true_eq, Prod.mk.injEq, Prod.exists]
  constructor
  · rintro ⟨m, t, h1, F', ⟨h2, h3⟩, h4, h5⟩
    exact ⟨m, t, F', h1, h2, h3, h4.symm, h5.symm⟩
  · rintro ⟨m, t, F', h1, h2, h3, h4, h5⟩
    exact ⟨m, t, h1, F', ⟨h2, h3⟩, h4.symm, h5.symm⟩

theorem hfFs_nodup {I J : ℚ} (hI : IsSpin I) (hJ : IsSpin J) : (hfFs I J).Nodup := by
  obtain ⟨n, h1, _⟩ := spin_count hI hJ
  unfold hfFs
  exact AtomTk.arange_nodup h1

theorem outs_nodup {w : World} {i : Nat} {J F : ℚ} (h : HfReady w i J F) {l : Dict Str Nat} (hn : l.keys.Nodup)
    (hl : ∀ m t, (m, t) ∈ l ↔ Decay w (w.lname i) i m t) : (outs w J F l).keys.Nodup := by
  have hsp : ∀ p ∈ l, ∀ F' ∈ hfFs w.I (Jof w p.1), IsHalfInt F' := by
    rintro ⟨m, t⟩ hp F' hF'
    obtain ⟨j, -, hf⟩ := h.to ((hl m t).1 hp)
    exact (hfFs_spin h.hI hf.spin hF').isHalfInt
  unfold Dict.keys outs
  rw [List.map_flatMap, List.nodup_flatMap]
  constructor
  · rintro ⟨m, t⟩ hp
    obtain ⟨j, -, hf⟩ := h.to ((hl m t).1 hp)
    rw [List.map_map]
    refine List.Nodup.map_on ?_ ((hfFs_nodup h.hI hf.spin).filter _)
    intro x hx y hy hxy
    exact (hypText_inj (hsp _ hp x (List.mem_filter.1 hx).1) (hsp _ hp y (List.mem_filter.1 hy).1) hxy).2
  · have hp : l.Pairwise (fun p q => p.1 ≠ q.1) := by
      unfold Dict.keys at hn
      exact List.pairwise_map.1 hn
    refine hp.imp_of_mem (fun {p q} hpm hqm hpq => ?_)
    rw [Function.onFun, List.disjoint_left]
    intro n h1 h2
    simp only [List.mem_map, List.mem_filter] at h1 h2
    obtain ⟨-, ⟨x, ⟨hx, -⟩, rfl⟩, rfl⟩ := h1
    obtain ⟨-, ⟨y, ⟨hy, -⟩, rfl⟩, h3⟩ := h2
    exact hpq (hypText_inj (hsp _ hqm y hy) (hsp _ hpm x hx) h3).1.symm

/-- The transitions down from a hyperfine level. -/
theorem downs_perm {w w' : World} (hr : Reachable w) {i a0 : Nat} {J F : ℚ} (h : HfReady w i J F) (hd : Radiates w i J F) (lf : LFrame w w')
    (h0 : IsHyp w' i J a0 F) {d : Dict Str HTr} (dn : d.keys.Nodup)
    (hx : ∀ n x, d.get? n = some x ↔ ∃ m t j J' F' b, Link w i F m t j J' F' ∧ n = hypText m F' ∧ IsHyp w' j J' b F' ∧
        x = w'.linkTr i t a0 b J F J' F')
    (hall : ∀ m t j J', m ≠ w.lname i → w.g.adj (w.lname i) m = some t → w.g.lev m = some j → (w.lv j).term.J = some J' →
        ∀ F' ∈ hfFs w.I J', ∃ b, IsHyp w' j J' b F')
    {l : Dict Str Nat} (hn : l.keys.Nodup) (hl : ∀ m t, (m, t) ∈ l ↔ Decay w (w.lname i) i m t) :
    ((d.filter (fun p => p.2.upper = a0)).map (fun p => (p.1, p.2.A))).Perm ((outs w J F l).map (fun p => (p.1, some p.2))) := by
  have n1 : ((d.filter (fun p => p.2.upper = a0)).map (fun p => (p.1, p.2.A))).Nodup := by
    refine List.Nodup.of_map Prod.fst ?_
    rw [List.map_map]
    exact (List.filter_sublist.map _).nodup dn
  have n2 : ((outs w J F l).map (fun p => (p.1, some p.2))).Nodup := by
    refine List.Nodup.of_map Prod.fst ?_
    rw [List.map_map]
    exact outs_nodup h hn hl
  rw [List.perm_ext_iff_of_nodup n1 n2]
  rintro ⟨n, A⟩
  simp only [List.mem_map, List.mem_filter, decide_eq_true_eq, Prod.mk.injEq, Prod.exists]
  constructor
  · rintro ⟨n', x, ⟨h1, h2⟩, rfl, rfl⟩
    obtain ⟨m, t, j, J', F', b, q1, q2, q3, rfl⟩ := (hx n' x).1 ((Dict.mem_iff dn _ _).1 h1)
    have hu := (linkTr_upper hr h hd.dir lf h0 q1 q3).2.2.1 h2
    have hdec : Decay w (w.lname i) i m t := ⟨q1.ne, q1.adj, hu⟩
    obtain ⟨a, ha, -⟩ := hd.rate m t hdec
    have hJ := Jof_eq q1.lev q1.J
    refine ⟨n', _, mem_outs.2 ⟨m, t, F', (hl m t).2 hdec, by rw [hJ]; exact q1.mem, q1.near, q2, rfl⟩, rfl, ?_⟩
    rw [linkTr_A, lf.tr, ha, lf.I, hJ]
    unfold rateOf
    rw [ha]; rfl
  · rintro ⟨n', a', h1, rfl, rfl⟩
    obtain ⟨m, t, F', c1, c2, c3, c4, c5⟩ := mem_outs.1 h1
    have hdec := (hl m t).1 c1
    obtain ⟨j, hj, hf⟩ := h.to hdec
    obtain ⟨b, hb⟩ := hall m t j _ hdec.1 hdec.2.1 hj hf.hJ F' c2
    have q : Link w i F m t j (Jof w m) F' := ⟨hdec.1, hdec.2.1, hj, hf.hJ, c2, c3⟩
    obtain ⟨a, ha, -⟩ := hd.rate m t hdec
    refine ⟨n', _, ⟨(Dict.mem_iff dn _ _).2 ((hx n' _).2 ⟨m, t, j, _, F', b, q, c4, hb, rfl⟩),
      (linkTr_upper hr h hd.dir lf h0 q hb).2.2.2 hdec.2.2⟩, rfl, ?_⟩
    rw [linkTr_A, lf.tr, ha, lf.I, c5]
    unfold rateOf
    rw [ha]; rfl

/-- The rates to the sublevels of one level. -/
theorem outs_one {w : World} {i : Nat} {J F : ℚ} (h : HfReady w i J F) (hd : Radiates w i J F) {m : Str} {t : Nat}
    (hdec : Decay w (w.lname i) i m t) :
    ((hfFs w.I (Jof w m)).map (fun F' => rateOf w t * hStrength (w.tr t).allowed w.I J F (Jof w m) F')).sum =
      rateOf w t * (((2 * F + 1 : ℚ) : ℝ) / ((2 * J + 1 : ℚ) : ℝ)) := by
  obtain ⟨j, hj, hf⟩ := h.to hdec
  obtain ⟨h1, h2⟩ := hd.line m t j _ hdec hj hf.hJ
  rw [List.sum_map_mul_left]
  exact congrArg _ (hStrength_sum h.hI h.lvl.spin hf.spin h1 h2 h.mem)

open Classical in
theorem sum_filter_zero {α : Type} (p : α → Prop) (f : α → ℝ) : ∀ l : List α, (∀ x ∈ l, ¬p x → f x = 0) →
    ((l.filter (fun x => p x)).map f).sum = (l.map f).sum
  | [], _ => rfl
  | x :: l, h => by
    have ih := sum_filter_zero p f l (fun y hy => h y (by simp [hy]))
    rw [List.filter_cons]
    by_cases hp : p x
    · simp [hp, ih]
    · simp [hp, ih, h x (by simp) hp]

open Classical in
/-- The total rate. -/
theorem outs_sum {w : World} {i : Nat} {J F : ℚ} (h : HfReady w i J F) (hd : Radiates w i J F) : ∀ {l : Dict Str Nat},
    (∀ m t, (m, t) ∈ l → Decay w (w.lname i) i m t) →
    ((outs w J F l).map (·.2)).sum = (l.map (fun p => rateOf w p.2)).sum * (((2 * F + 1 : ℚ) : ℝ) / ((2 * J + 1 : ℚ) : ℝ))
  | [], _ => by simp [outs]
  | (m, t) :: l, hl => by
    have ih := outs_sum h hd (l := l) (fun m t hm => hl m t (by simp [hm]))
    have hdec := hl m t (by simp)
    obtain ⟨j, hj, hf⟩ := h.to hdec
    have e : outs w J F ((m, t) :: l) = ((hfFs w.I (Jof w m)).filter (fun F' => Near (w.tr t).allowed F F')).map (fun F' =>
      (hypText m F', rateOf w t * hStrength (w.tr t).allowed w.I J F (Jof w m) F')) ++ outs w J F l := rfl
    rw [e, List.map_append, List.sum_append, ih, List.map_cons, List.sum_cons, List.map_map, add_mul, ← outs_one h hd hdec]
    congr 1
    refine sum_filter_zero _ _ _ (fun F' hF' hn => ?_)
    simp only [Function.comp]
    rw [hStrength_near (hfFs_spin h.hI h.lvl.spin h.mem).isHalfInt (hfFs_spin h.hI hf.spin hF').isHalfInt hn, mul_zero]

theorem coeffs_some (e : PyErr) : ∀ l : List (Option ℝ), (∀ a ∈ l, a ≠ none) → coeffs e l = .ok (l.map (fun a => a.getD 0))
  | [], _ => rfl
  | some a :: l, h => by
    unfold coeffs
    rw [coeffs_some e l (fun b hb => h b (by simp [hb]))]
    rfl
  | none :: l, h => absurd rfl (h none (by simp))

/-- The rates of the transitions down, as a list. -/
theorem downs_coeffs {e : PyErr} {D : Dict Str (Option ℝ)} {o : Dict Str ℝ} (h : D.Perm (o.map (fun p => (p.1, some p.2)))) :
    coeffs e D.vals = .ok (D.vals.map (fun a => a.getD 0)) ∧ (D.vals.map (fun a => a.getD 0)).sum = (o.map (·.2)).sum := by
  constructor
  · refine coeffs_some e _ (fun a ha => ?_)
    unfold Dict.vals at ha
    obtain ⟨p, hp, rfl⟩ := List.mem_map.1 ha
    obtain ⟨q, -, rfl⟩ := List.mem_map.1 (h.mem_iff.1 hp)
    simp
  · have := (h.map (fun p => p.2.getD 0)).sum_eq
    unfold Dict.vals
    rw [List.map_map] at this ⊢
    exact this

/-! ## C100 -/

/-- C100 in full: `linked_levels` of a hyperfine level lists the hyperfine levels of the linked levels that a type of the transition
couples it to, and no others. -/
def C100_full : Prop := ∀ (W : Wig), W.Good → ∀ (w : World), Reachable w → ∀ (i : Nat) (J F : ℚ), HfReady w i J F →
  ∃ w' H' d, linkedHyp W Rows.empty (hypText (w.lname i) F) w = (w', .ok (H', d)) ∧
    ∀ n, n ∈ d.keys ↔ ∃ m t j J' F', m ≠ w.lname i ∧ w.g.adj (w.lname i) m = some t ∧ w.g.lev m = some j ∧ (w.lv j).term.J = some J' ∧
      F' ∈ hfFs w.I J' ∧ Coupled (w.tr t).allowed w.I J F J' F' ∧ n = hypText m F'

/-- C100 as far as it holds: the hyperfine levels listed are those of the linked levels whose F differs by no more than the type of
the transition allows; each entry is a transition of the linking transition between the two; no name is listed twice; the atom is left
as it was but for sublevels made; and asking again gives the same names.  (Missing: pairs that the type does not couple are listed
too, and with M1 and E2 both allowed the pairs at distance 2 are not.) -/
theorem C100_listed_partial {W : Wig} (hW : W.Good) {w : World} (hr : Reachable w) {i : Nat} {J F : ℚ} (h : HfReady w i J F) {H : Rows HTr}
    (hH : H.Fits w i F) : ∃ w' H' d a0, linkedHyp W H (hypText (w.lname i) F) w = (w', .ok (H', d)) ∧ LFrame w w' ∧
      IsHyp w' i J a0 F ∧ d.keys.Nodup ∧
      (∀ n, n ∈ d.keys ↔ ∃ m t j J' F', Link w i F m t j J' F' ∧ n = hypText m F') ∧
      (∀ n x, d.get? n = some x → ∃ m t j J' F' b, Link w i F m t j J' F' ∧ n = hypText m F' ∧ IsHyp w' j J' b F' ∧ x.parent = t ∧
        ((x.e1 = a0 ∧ x.e2 = b) ∨ (x.e1 = b ∧ x.e2 = a0)) ∧ ((x.lower = a0 ∧ x.upper = b) ∨ (x.lower = b ∧ x.upper = a0))) ∧
      ∃ w'' H'' d', linkedHyp W H' (hypText (w.lname i) F) w' = (w'', .ok (H'', d')) ∧ ∀ n, n ∈ d'.keys ↔ n ∈ d.keys := by
  obtain ⟨w', H', d, a0, h1, h2, h3, h4, h5, h6, h7, h8, h9⟩ := linkedHyp_spec hW hr h hH
  have keys : ∀ n, n ∈ d.keys ↔ ∃ m t j J' F', Link w i F m t j J' F' ∧ n = hypText m F' := by
    intro n
    rw [← Dict.get?_isSome]
    constructor
    · rintro ⟨x, hx⟩
      obtain ⟨m, t, j, J', F', b, q1, q2, -, -⟩ := (h6 n x).1 hx
      exact ⟨m, t, j, J', F', q1, q2⟩
    · rintro ⟨m, t, j, J', F', q1, q2⟩
      obtain ⟨b, hb⟩ := h7 m t j J' q1.ne q1.adj q1.lev q1.J F' q1.mem
      exact ⟨_, (h6 n _).2 ⟨m, t, j, J', F', b, q1, q2, hb, rfl⟩⟩
  refine ⟨w', H', d, a0, h1, h2, h4, h5, keys, fun n x hx => ?_, ?_⟩
  · obtain ⟨m, t, j, J', F', b, q1, q2, q3, rfl⟩ := (h6 n x).1 hx
    refine ⟨m, t, j, J', F', b, q1, q2, q3, ?_⟩
    unfold linkTr mkHTr
    split
    · refine ⟨rfl, .inl ⟨rfl, rfl⟩, ?_⟩
      simp only
      split <;> simp
    · refine ⟨rfl, .inr ⟨rfl, rfl⟩, ?_⟩
      simp only
      split <;> simp
  · obtain ⟨w2, H2, d2, a2, g1, -, -, -, -, g6, g7, -, -⟩ := linkedHyp_spec hW h3 (h.frame h2) h9
    rw [h2.lname] at g1
    refine ⟨w2, H2, d2, g1, fun n => ?_⟩
    rw [keys, ← Dict.get?_isSome]
    constructor
    · rintro ⟨x, hx⟩
      obtain ⟨m, t, j, J', F', b, q1, q2, -, -⟩ := (g6 n x).1 hx
      exact ⟨m, t, j, J', F', (Link.frame h2).1 q1, q2⟩
    · rintro ⟨m, t, j, J', F', q1, q2⟩
      have q1 := (Link.frame h2).2 q1
      obtain ⟨b, hb⟩ := g7 m t j J' q1.ne q1.adj q1.lev q1.J F' q1.mem
      exact ⟨_, (g6 n _).2 ⟨m, t, j, J', F', b, q1, q2, hb, rfl⟩⟩

/-! ## C101 -/

/-- The time multiplied by a number. -/
noncomputable def World.Time.scale (c : ℝ) : Time → Time
  | .inf => .inf
  | .sec x => .sec (c * x)

/-- C101 in full: a hyperfine level lives as long as its level. -/
def C101_full : Prop := ∀ (W : Wig), W.Good → ∀ (w : World), Reachable w → ∀ (i : Nat) (J F : ℚ), HfReady w i J F → Radiates w i J F →
  ∃ w' τ, hypLifetime W Rows.empty (hypText (w.lname i) F) w = (w', .ok τ) ∧ stateLifetime (w.lname i) w = (w, .ok τ)

/-- The lifetime that the code gives a hyperfine level: that of the level times `(2J+1)/(2F+1)`, where it should be the same. -/
theorem C101_lifetime_partial {W : Wig} (hW : W.Good) {w : World} (hr : Reachable w) {i : Nat} {J F : ℚ} (h : HfReady w i J F)
    (hd : Radiates w i J F) {H : Rows HTr} (hH : H.Fits w i F) :
    ∃ w' τ, hypLifetime W H (hypText (w.lname i) F) w = (w', .ok (τ.scale (((2 * J + 1 : ℚ) : ℝ) / ((2 * F + 1 : ℚ) : ℝ)))) ∧
      stateLifetime (w.lname i) w = (w, .ok τ) := by
  obtain ⟨w', H', d, a0, h1, h2, h3, h4, h5, h6, h7, h8, h9⟩ := linkedHyp_spec hW hr h hH
  obtain ⟨l, l1, l2, l3⟩ := totalA_eq hr (h.lvl.plain h.ali) h.lvl.reg (fun n t q => (hd.rate n t q).imp fun _ q => q.1)
  have hp := downs_perm hr h hd h2 h4 h5 h6 h7 l1 l2
  obtain ⟨c1, c2⟩ := downs_coeffs (e := .TypeError) hp
  rw [outs_sum h hd (fun m t => (l2 m t).1)] at c2
  have e : (d.vals.filter (fun x => Ref.hyp x.upper = Ref.hyp a0)).map HTr.A =
      Dict.vals ((d.filter (fun p => p.2.upper = a0)).map (fun p => (p.1, p.2.A))) := by
    unfold Dict.vals
    rw [List.filter_map, List.map_map, List.map_map]
    congr 1
    apply List.filter_congr
    intro p _
    simp
  refine ⟨w', _, ?_, lifetime_of_total l3⟩
  unfold hypLifetime
  rw [PyM.bind_ok h1]
  simp only
  rw [PyM.bind_ok h8, e]
  rw [PyM.bind_ok (show PyM.lift (coeffs .TypeError _) w' = (w', .ok _) by unfold PyM.lift; rw [c1])]
  rw [c2]
  have sF := (hfFs_spin h.hI h.lvl.spin h.mem).nonneg
  have sJ := h.lvl.spin.nonneg
  have pF : (0 : ℝ) < ((2 * F + 1 : ℚ) : ℝ) := by
    have : (0 : ℚ) < 2 * F + 1 := by linarith
    exact_mod_cast this
  have pJ : (0 : ℝ) < ((2 * J + 1 : ℚ) : ℝ) := by
    have : (0 : ℚ) < 2 * J + 1 := by linarith
    exact_mod_cast this
  have hs : (l.map (fun p => rateOf w p.2)).sum = (((l.map (fun p => ((w.tr p.2).A).getD 0)).sum : ℚ) : ℝ) := by
    rw [Rat.cast_list_sum, List.map_map]; rfl
  rw [hs]
  set tot := (l.map (fun p => ((w.tr p.2).A).getD 0)).sum
  unfold lifetimeOf
  by_cases h0 : tot = 0
  · rw [h0]
    simp [World.Time.scale]
    rfl
  · have h0' : ((tot : ℚ) : ℝ) ≠ 0 := by exact_mod_cast h0
    rw [if_neg (by positivity), if_neg h0]
    have := Real.pi_pos
    simp only [World.Time.scale]
    show (w', Except.ok (World.Time.sec _)) = _
    congr 3
    field_simp

/-! ## C102 -/

/-- The ratios of a level, entry by entry. -/
theorem branching_eq {w : World} {key : Str} {i : Nat} (hr : Reachable w) (hp : Plain w key)
    (hl : w.g.lev key = some i) (hA : ∀ n t, Decay w key i n t → ∃ a, (w.tr t).A = some a) :
    ∃ l : Dict Str Nat, l.keys.Nodup ∧ (∀ n t, (n, t) ∈ l ↔ Decay w key i n t) ∧
      branching key w = (w, .ok (l.map (fun p => (p.1, ratio (((w.tr p.2).A).getD 0) (l.map (fun p => ((w.tr p.2).A).getD 0)).sum)))) := by
  obtain ⟨d, l, h1, h2, _, h4, h5⟩ := decays hr hp hl
  have hbuilt : ∀ t ∈ l.map (·.2), (w.tr t).built = true ∧ ∃ a, (w.tr t).A = some a := by
    intro t ht
    obtain ⟨⟨n, t⟩, hm, rfl⟩ := List.mem_map.1 ht
    have := (h5 n t).1 hm
    exact ⟨(hr.wf.edge _ _ _ this.2.1).2.1, hA n t this⟩
  refine ⟨l, h4, h5, ?_⟩
  unfold branching
  rw [PyM.bind_ok h1, PyM.bind_ok (show PyM.get w = (w, .ok w) from rfl)]
  simp only [h2]
  rw [PyM.bind_ok (show PyM.lift (w.rates .AttributeError (l.map (·.2))) w = (w, .ok ((l.map (·.2)).map (fun t => ((w.tr t).A).getD 0))) by
      unfold PyM.lift; rw [rates_ok w _ _ hbuilt])]
  have es : ((l.map (·.2)).map (fun t => ((w.tr t).A).getD 0)).sum = (l.map (fun p => ((w.tr p.2).A).getD 0)).sum := by
    rw [List.map_map]; rfl
  rw [es, List.map_map, List.map_map, List.zip_map']
  rfl

/-- The ratio listed under a name, 0 if there is none. -/
noncomputable def shareOf (d : Dict Str (Option ℝ)) (n : Str) : ℝ := ((d.get? n).getD none).getD 0

theorem sharesOf_eq {D : Dict Str (Option ℝ)} {o : Dict Str ℝ} (h : D.Perm (o.map (fun p => (p.1, some p.2)))) :
    ∃ d, sharesOf D = .ok d ∧ d.Perm (o.map (fun p => (p.1, share p.2 (o.map (·.2)).sum))) := by
  obtain ⟨c1, c2⟩ := downs_coeffs (e := .AttributeError) h
  refine ⟨_, by unfold sharesOf; rw [c1]; rfl, ?_⟩
  unfold Dict.keys Dict.vals at *
  rw [c2]
  rw [List.map_map, List.map_map, List.zip_map']
  have := h.map (fun p => (p.1, share (p.2.getD 0) (o.map (·.2)).sum))
  rw [List.map_map] at this
  exact this

/-- The transitions down from a hyperfine level, by name and by object. -/
theorem hyp_downs {w w' : World} (hr : Reachable w) {i a0 : Nat} {J F : ℚ} (h : HfReady w i J F) (hd : Directed w i J F) (h2 : LFrame w w')
    (h3 : Reachable w') (h4 : IsHyp w' i J a0 F) {d : Dict Str HTr} (h5 : d.keys.Nodup)
    (h6 : ∀ n x, d.get? n = some x ↔ ∃ m t j J' F' b, Link w i F m t j J' F' ∧ n = hypText m F' ∧ IsHyp w' j J' b F' ∧
        x = w'.linkTr i t a0 b J F J' F') :
    (d.filter (fun p => w'.hFull p.2.upper = hypText (w.lname i) F)) = d.filter (fun p => p.2.upper = a0) := by
  apply List.filter_congr
  rintro ⟨n, x⟩ hx
  obtain ⟨m, t, j, J', F', b, q1, q2, q3, rfl⟩ := (h6 n x).1 ((Dict.mem_iff h5 _ _).1 hx)
  obtain ⟨u1, u2, -⟩ := linkTr_upper hr h hd h2 h4 q1 q3
  have f2 := h.lvl.keep h2
  have na : w'.hFull a0 = hypText (w.lname i) F := by
    rw [hyp_fullName h3.subInv h4 f2.1.hF f2.1.hM, f2.2.1]
  have nb : w'.hFull b ≠ hypText (w.lname i) F := by
    obtain ⟨j', J'', hj', hf⟩ := h.nbr m t q1.ne q1.adj
    rw [q1.lev] at hj'
    obtain rfl := Option.some.inj hj'
    obtain rfl : J' = J'' := Option.some.inj (q1.J.symm.trans hf.hJ)
    have g2 := hf.keep h2
    obtain ⟨e, -⟩ := link_ends hr h.lvl.reg q1.adj q1.lev
    rw [hyp_fullName h3.subInv q3 g2.1.hF g2.1.hM, g2.2.1, e]
    intro hc
    exact q1.ne (hypText_inj (hfFs_spin h.hI hf.spin q1.mem).isHalfInt (hfFs_spin h.hI h.lvl.spin h.mem).isHalfInt hc).1
  simp only [decide_eq_decide]
  rcases u2 with u | u
  · rw [u]; simp [na]
  · rw [u]; simp [nb, u1]

/-- C102: the branching ratios of a hyperfine level are those of its level, each divided among the hyperfine levels that the transition
ends on; the share of F' is `(2F'+1)(2J+1)` times the square of the 6j symbol. -/
theorem C102_branching {W : Wig} (hW : W.Good) {w : World} (hr : Reachable w) {i : Nat} {J F : ℚ} (h : HfReady w i J F)
    (hd : Radiates w i J F) (hA : ∃ m t a, Decay w (w.lname i) i m t ∧ (w.tr t).A = some a ∧ a ≠ 0) {H : Rows HTr} (hH : H.Fits w i F) :
    ∃ w' d d0, hypBranching W H (hypText (w.lname i) F) w = (w', .ok d) ∧ branching (w.lname i) w = (w, .ok d0) ∧ d.keys.Nodup ∧
      (∀ n ∈ d.keys, ∃ m j J' F', m ∈ d0.keys ∧ w.g.lev m = some j ∧ (w.lv j).term.J = some J' ∧ F' ∈ hfFs w.I J' ∧ n = hypText m F') ∧
      (∀ v ∈ d.vals, ∃ r, v = some r ∧ 0 ≤ r ∧ r ≤ 1) ∧ (d.vals.map (fun v => v.getD 0)).sum = 1 ∧
      ∀ m t j J' r, Decay w (w.lname i) i m t → w.g.lev m = some j → (w.lv j).term.J = some J' → d0.get? m = some (some r) →
        ((hfFs w.I J').map (fun F' => shareOf d (hypText m F'))).sum = r ∧
        ∀ F' ∈ hfFs w.I J', shareOf d (hypText m F') =
          r * (((2 * J + 1) * (2 * F' + 1) : ℚ) * six J J' (leading (w.tr t).allowed) F' F w.I ^ 2) := by
  obtain ⟨w', H', d, a0, h1, h2, h3, h4, h5, h6, h7, h8, h9⟩ := linkedHyp_spec hW hr h hH
  obtain ⟨l, l1, l2, l3⟩ := branching_eq hr (h.lvl.plain h.ali) h.lvl.reg (fun n t q => (hd.rate n t q).imp fun _ q => q.1)
  have hp := downs_perm hr h hd h2 h4 h5 h6 h7 l1 l2
  have e := hyp_downs hr h hd.dir h2 h3 h4 h5 h6
  obtain ⟨D, c1, c2⟩ := sharesOf_eq hp
  have hb : hypBranching W H (hypText (w.lname i) F) w = (w', .ok D) := by
    unfold hypBranching
    rw [PyM.bind_ok h1]
    simp only
    rw [PyM.bind_ok (show PyM.get w' = (w', .ok w') from rfl), e]
    unfold PyM.lift
    rw [c1]
  -- the totals
  have sF := (hfFs_spin h.hI h.lvl.spin h.mem).nonneg
  have sJ := h.lvl.spin.nonneg
  have pF : (0 : ℝ) < ((2 * F + 1 : ℚ) : ℝ) := by
    have : (0 : ℚ) < 2 * F + 1 := by linarith
    exact_mod_cast this
  have pJ : (0 : ℝ) < ((2 * J + 1 : ℚ) : ℝ) := by
    have : (0 : ℚ) < 2 * J + 1 := by linarith
    exact_mod_cast this
  have hs : (l.map (fun p => rateOf w p.2)).sum = (((l.map (fun p => ((w.tr p.2).A).getD 0)).sum : ℚ) : ℝ) := by
    rw [Rat.cast_list_sum, List.map_map]; rfl
  have hos := outs_sum h hd (l := l) (fun m t => (l2 m t).1)
  rw [hs] at hos
  set tot := (l.map (fun p => ((w.tr p.2).A).getD 0)).sum with htot
  have hnn : ∀ a ∈ l.map (fun p => ((w.tr p.2).A).getD 0), 0 ≤ a := by
    intro a ha
    obtain ⟨⟨n, t⟩, hm, rfl⟩ := List.mem_map.1 ha
    obtain ⟨a, ha, h0⟩ := hd.rate n t ((l2 n t).1 hm)
    simp only [ha, Option.getD_some]; exact h0
  have tpos : 0 < tot := by
    obtain ⟨m, t, a, hdec, ha, hne⟩ := hA
    have hmem : a ∈ l.map (fun p => ((w.tr p.2).A).getD 0) := List.mem_map.2 ⟨(m, t), (l2 m t).2 hdec, by simp [ha]⟩
    exact lt_of_lt_of_le (lt_of_le_of_ne (hnn a hmem) (Ne.symm hne)) (List.single_le_sum hnn a hmem)
  have tpos' : (0 : ℝ) < ((tot : ℚ) : ℝ) := by exact_mod_cast tpos
  set T := ((outs w J F l).map (·.2)).sum with hT
  have Tpos : 0 < T := by rw [hos]; positivity
  have hshare : ∀ a, share a T = some (a / T) := fun a => by unfold share; rw [if_neg Tpos.ne']
  have onn : ∀ a ∈ (outs w J F l).map (·.2), 0 ≤ a := by
    intro a ha
    obtain ⟨⟨n, a⟩, hm, rfl⟩ := List.mem_map.1 ha
    obtain ⟨m, t, F', d1, d2, -, -, d5⟩ := mem_outs.1 hm
    obtain ⟨a, ha, h0⟩ := hd.rate m t ((l2 m t).1 d1)
    obtain ⟨j, hj, hf⟩ := h.to ((l2 m t).1 d1)
    simp only at d5 ⊢
    rw [d5]
    refine mul_nonneg ?_ ?_
    · unfold rateOf
      rw [ha, Option.getD_some]
      exact_mod_cast h0
    · have := (hfFs_spin h.hI hf.spin d2).nonneg
      have p : (0 : ℝ) ≤ (((2 * F + 1) * (2 * F' + 1) : ℚ) : ℝ) := by
        have : (0 : ℚ) ≤ (2 * F + 1) * (2 * F' + 1) := by positivity
        exact_mod_cast this
      unfold hStrength
      split
      · positivity
      · split
        · positivity
        · exact le_refl _
  have dperm : D.Perm ((outs w J F l).map (fun p => (p.1, some (p.2 / T)))) := by
    refine c2.trans (List.Perm.of_eq (List.map_congr_left (fun p _ => ?_)))
    rw [hshare]
  have dkeys : D.keys.Perm (outs w J F l).keys := by
    have := dperm.map (·.1)
    rw [List.map_map] at this
    exact this
  have dnod : D.keys.Nodup := dkeys.nodup_iff.2 (outs_nodup h l1 l2)
  have dget : ∀ n a, (n, a) ∈ outs w J F l → D.get? n = some (some (a / T)) := fun n a hm =>
    Dict.get?_of_mem dnod (dperm.mem_iff.2 (List.mem_map.2 ⟨(n, a), hm, rfl⟩))
  refine ⟨w', D, _, hb, l3, dnod, ?_, ?_, ?_, ?_⟩
  · intro n hn
    obtain ⟨⟨n, a⟩, hm, rfl⟩ := List.mem_map.1 (dkeys.mem_iff.1 hn)
    obtain ⟨m, t, F', d1, d2, -, d4, -⟩ := mem_outs.1 hm
    obtain ⟨j, hj, hf⟩ := h.to ((l2 m t).1 d1)
    refine ⟨m, j, Jof w m, F', ?_, hj, hf.hJ, d2, d4⟩
    unfold Dict.keys
    rw [List.map_map]
    exact List.mem_map.2 ⟨(m, t), d1, rfl⟩
  · intro v hv
    obtain ⟨p, hm, rfl⟩ := List.mem_map.1 hv
    obtain ⟨⟨n, a⟩, hm', rfl⟩ := List.mem_map.1 (dperm.mem_iff.1 hm)
    have ha : a ∈ (outs w J F l).map (·.2) := List.mem_map.2 ⟨(n, a), hm', rfl⟩
    exact ⟨a / T, rfl, div_nonneg (onn a ha) Tpos.le, (div_le_one Tpos).2 (List.single_le_sum onn a ha)⟩
  · have h1 := (dperm.map (fun p => p.2.getD 0)).sum_eq
    rw [List.map_map] at h1
    have e1 : ((outs w J F l).map ((fun p : Str × Option ℝ => p.2.getD 0) ∘ fun p => (p.1, some (p.2 / T)))) =
        ((outs w J F l).map (·.2)).map (· * T⁻¹) := by
      rw [List.map_map]
      exact List.map_congr_left (fun p _ => div_eq_mul_inv _ _)
    rw [e1, List.sum_map_mul_right, List.map_id', ← hT, mul_inv_cancel₀ Tpos.ne'] at h1
    unfold Dict.vals
    rw [List.map_map]
    exact h1
  · intro m t j J' r hdec hj hJ hr0
    obtain rfl := (Jof_eq hj hJ).symm
    obtain ⟨j', hj', hf⟩ := h.to hdec
    have hr1 : Dict.get? (l.map (fun p => (p.1, ratio (((w.tr p.2).A).getD 0) tot))) m = some (some (((w.tr t).A).getD 0 / tot)) := by
      apply Dict.get?_of_mem
      · unfold Dict.keys
        rw [List.map_map]
        exact l1
      · refine List.mem_map.2 ⟨(m, t), (l2 m t).2 hdec, ?_⟩
        unfold ratio
        rw [if_neg tpos.ne']
    rw [hr1] at hr0
    have hr0 : ((w.tr t).A).getD 0 / tot = r := Option.some.inj (Option.some.inj hr0)
    have hrR : ((r : ℚ) : ℝ) = rateOf w t / ((tot : ℚ) : ℝ) := by
      rw [← hr0]; unfold rateOf; push_cast; rfl
    obtain ⟨hany, hc⟩ := hd.line m t j _ hdec hj hJ
    have val : ∀ F' ∈ hfFs w.I (Jof w m), shareOf D (hypText m F') =
        rateOf w t * hStrength (w.tr t).allowed w.I J F (Jof w m) F' / T := by
      intro F' hF'
      unfold shareOf
      by_cases hn : Near (w.tr t).allowed F F'
      · rw [dget _ _ (mem_outs.2 ⟨m, t, F', (l2 m t).2 hdec, hF', hn, rfl, rfl⟩)]
        rfl
      · rw [hStrength_near (hfFs_spin h.hI h.lvl.spin h.mem).isHalfInt (hfFs_spin h.hI hf.spin hF').isHalfInt hn, mul_zero, zero_div]
        rw [keys_get_none]
        · rfl
        · rw [dkeys.mem_iff]
          intro hm
          obtain ⟨⟨n, a⟩, hm, hn'⟩ := List.mem_map.1 hm
          obtain ⟨m', t', F'', d1, d2, d3, d4, -⟩ := mem_outs.1 hm
          simp only at hn'
          rw [d4] at hn'
          obtain ⟨j2, hj2, hf2⟩ := h.to ((l2 m' t').1 d1)
          obtain ⟨rfl, rfl⟩ := hypText_inj (hfFs_spin h.hI hf2.spin d2).isHalfInt (hfFs_spin h.hI hf.spin hF').isHalfInt hn'
          obtain rfl : t' = t := Option.some.inj (((l2 _ t').1 d1).2.1.symm.trans hdec.2.1)
          exact hn d3
    constructor
    · rw [List.map_congr_left val]
      have e1 : (fun F' => rateOf w t * hStrength (w.tr t).allowed w.I J F (Jof w m) F' / T) =
          fun F' => (rateOf w t * hStrength (w.tr t).allowed w.I J F (Jof w m) F') * T⁻¹ := by
        funext F'; exact div_eq_mul_inv _ _
      rw [e1, List.sum_map_mul_right, outs_one h hd hdec, hos, hrR]
      field_simp
    · intro F' hF'
      have hk : ((leading (w.tr t).allowed : ℕ) : ℚ) = half ((2 * leading (w.tr t).allowed : ℕ) : ℤ) := by unfold half; push_cast; ring
      rw [val F' hF', hStrength_leading _ hany, hos, hrR, hk]
      push_cast at pF pJ ⊢
      field_simp

/-! ## Witnesses -/

/-- An atom with one transition, between levels 0 and 1: the neighbours of either. -/
theorem two_nbr {w : World} (hr : Reachable w) (hn : w.ntr = 1) (h0 : (w.tr 0).lower = 0) (h1 : (w.tr 0).upper = 1) {u v : Str} {t : Nat}
    (ha : w.g.adj u v = some t) : t = 0 ∧ ((u = w.lname 0 ∧ v = w.lname 1) ∨ (u = w.lname 1 ∧ v = w.lname 0)) := by
  obtain ⟨c1, -, -, -, c5, -⟩ := hr.wf.edge _ _ _ ha
  obtain rfl : t = 0 := by omega
  rw [h0, h1] at c5
  exact ⟨rfl, c5⟩

theorem oneAtom_hf : HfReady oneAtom 0 1 0 where
  hI := ⟨2, by decide +kernel⟩
  lvl := ⟨by decide +kernel, by decide +kernel, by decide +kernel, ⟨2, by norm_num⟩, by decide +kernel, by decide +kernel⟩
  mem := by decide +kernel
  ali := by decide +kernel
  sub := by decide +kernel
  nbr := by
    intro n t hn ha
    obtain ⟨rfl, ⟨-, rfl⟩ | ⟨-, rfl⟩⟩ := two_nbr oneAtom_reachable (by decide +kernel) (by decide +kernel) (by decide +kernel) ha
    · exact ⟨1, 1, by decide +kernel, by decide +kernel, by decide +kernel, by decide +kernel, ⟨2, by norm_num⟩, by decide +kernel, by decide +kernel⟩
    · exact absurd rfl hn

/-- C100 fails: F = 0 is linked to F' = 0, to which no multipole couples it. -/
theorem C100_fails : ¬C100_full := by
  intro h
  obtain ⟨w', H', d, h1, h2⟩ := h exactWig exactWig_good oneAtom oneAtom_reachable 0 1 0 oneAtom_hf
  obtain ⟨w2, H2, d2, a0, g1, -, -, -, g5, -⟩ := C100_listed_partial exactWig_good oneAtom_reachable oneAtom_hf (Rows.empty_fits oneAtom 0 0)
  rw [h1] at g1
  simp only [Prod.mk.injEq, Except.ok.injEq] at g1
  obtain ⟨-, -, rfl⟩ := g1
  have hm := (g5 (hypText (oneAtom.lname 1) 0)).2 ⟨oneAtom.lname 1, 0, 1, 1, 0,
    ⟨by decide +kernel, by decide +kernel, by decide +kernel, by decide +kernel, by decide +kernel, fun _ => by
      rw [sub_zero, abs_zero]; split <;> norm_num⟩, rfl⟩
  obtain ⟨m, t, j, J', F', q1, q2, q3, q4, q5, q6, q7⟩ := (h2 _).1 hm
  obtain ⟨rfl, ⟨-, rfl⟩ | ⟨-, rfl⟩⟩ := two_nbr oneAtom_reachable (by decide +kernel) (by decide +kernel) (by decide +kernel) q2
  · have hJ : J' = 1 := by
      have e : oneAtom.g.lev (oneAtom.lname 1) = some 1 := by decide +kernel
      rw [e] at q3
      obtain rfl := Option.some.inj q3
      have e : (oneAtom.lv 1).term.J = some 1 := by decide +kernel
      rw [e] at q4
      exact (Option.some.inj q4).symm
    subst hJ
    have hs := hfFs_spin oneAtom_hf.hI ⟨2, by norm_num⟩ q5
    obtain ⟨-, rfl⟩ := hypText_inj (F := 0) ⟨0, by norm_num⟩ hs.isHalfInt q7
    have half0 : IsHalfInt (0 : ℚ) := ⟨0, by norm_num⟩
    rcases q6 with ⟨-, h6⟩ | ⟨-, h6⟩
    · rw [← half_one] at h6
      have := (six_tri half0 half0 h6).2
      rw [half_one] at this
      norm_num at this
    · rw [← half_two] at h6
      have := (six_tri half0 half0 h6).2
      rw [half_two] at this
      norm_num at this
  · exact q1 rfl

theorem dAtom_hf : HfReady dAtom 1 (3/2) 3 where
  hI := ⟨3, by decide +kernel⟩
  lvl := ⟨by decide +kernel, by decide +kernel, by decide +kernel, ⟨3, by norm_num⟩, by decide +kernel, by decide +kernel⟩
  mem := by decide +kernel
  ali := by decide +kernel
  sub := by decide +kernel
  nbr := by
    intro n t hn ha
    obtain ⟨rfl, ⟨-, rfl⟩ | ⟨-, rfl⟩⟩ := two_nbr dAtom_reachable (by decide +kernel) (by decide +kernel) (by decide +kernel) ha
    · exact absurd rfl hn
    · exact ⟨0, 1/2, by decide +kernel, by decide +kernel, by decide +kernel, by decide +kernel, ⟨1, by norm_num⟩, by decide +kernel, by decide +kernel⟩

theorem dAtom_low {n : Str} {t j : Nat} {J' : ℚ} (hn : n ≠ dAtom.lname 1) (ha : dAtom.g.adj (dAtom.lname 1) n = some t)
    (hj : dAtom.g.lev n = some j) (hJ : (dAtom.lv j).term.J = some J') : n = dAtom.lname 0 ∧ t = 0 ∧ j = 0 ∧ J' = 1/2 := by
  obtain ⟨rfl, ⟨-, rfl⟩ | ⟨-, rfl⟩⟩ := two_nbr dAtom_reachable (by decide +kernel) (by decide +kernel) (by decide +kernel) ha
  · exact absurd rfl hn
  · have e : dAtom.g.lev (dAtom.lname 0) = some 0 := by decide +kernel
    rw [e] at hj
    obtain rfl := Option.some.inj hj
    have e : (dAtom.lv 0).term.J = some (1/2) := by decide +kernel
    rw [e] at hJ
    exact ⟨rfl, rfl, rfl, (Option.some.inj hJ).symm⟩

theorem dAtom_tri : Couples (3/2) (1/2) ((leading (dAtom.tr 0).allowed : ℕ) : ℚ) := by
  rw [dAtom_types]
  exact ⟨by norm_num [leading], by norm_num [leading], -1, by norm_num [leading]⟩

theorem dAtom_radiates : Radiates dAtom 1 (3/2) 3 where
  rate := by
    intro m t hd
    obtain ⟨rfl, -⟩ := two_nbr dAtom_reachable (by decide +kernel) (by decide +kernel) (by decide +kernel) hd.2.1
    exact ⟨1, by decide +kernel, by norm_num⟩
  line := by
    intro m t j J' hd hj hJ
    obtain ⟨rfl, rfl, rfl, rfl⟩ := dAtom_low hd.1 hd.2.1 hj hJ
    exact ⟨by decide +kernel, dAtom_tri⟩
  down := by
    intro m t j J' hd hj hJ F' hF'
    obtain ⟨rfl, rfl, rfl, rfl⟩ := dAtom_low hd.1 hd.2.1 hj hJ
    revert F'
    decide +kernel
  up := by
    intro m t j J' hn ha hu hj hJ
    obtain ⟨rfl, rfl, rfl, rfl⟩ := dAtom_low hn ha hj hJ
    exact absurd (by decide +kernel) hu

/-- The line of `dAtom` starts on level 1. -/
theorem dAtom_decay : Decay dAtom (dAtom.lname 1) 1 (dAtom.lname 0) 0 := by
  refine ⟨by decide +kernel, by decide +kernel, by decide +kernel⟩

/-- C101 fails: F = 3 of a J = 3/2 level with one line gets four sevenths of the lifetime of the level. -/
theorem C101_fails : ¬C101_full := by
  intro h
  obtain ⟨w', τ, h1, h2⟩ := h exactWig exactWig_good dAtom dAtom_reachable 1 (3/2) 3 dAtom_hf dAtom_radiates
  obtain ⟨w2, τ2, g1, g2⟩ := C101_lifetime_partial exactWig_good dAtom_reachable dAtom_hf dAtom_radiates (Rows.empty_fits dAtom 1 3)
  rw [h1] at g1
  rw [h2] at g2
  simp only [Prod.mk.injEq, Except.ok.injEq, true_and] at g1 g2
  obtain ⟨-, g1⟩ := g1
  subst g2
  obtain ⟨l, -, -, τ3, e1, e2, e3⟩ := C44_lifetime dAtom (dAtom.lname 1) 1 dAtom_reachable (dAtom_hf.lvl.plain dAtom_hf.ali) dAtom_hf.lvl.reg
    dAtom_radiates.rate
  rw [h2] at e1
  simp only [Prod.mk.injEq, Except.ok.injEq, true_and] at e1
  subst e1
  cases τ with
  | inf => exact e2.1 rfl ⟨_, 0, 1, dAtom_decay, by decide +kernel, by norm_num⟩
  | sec x =>
    have hx := (e3 x rfl).1
    simp only [World.Time.scale, World.Time.sec.injEq] at g1
    push_cast at g1
    norm_num at g1
    linarith

/-- The hypotheses of C100-C102 in `dAtom`. -/
example : HfReady dAtom 1 (3/2) 3 ∧ Radiates dAtom 1 (3/2) 3 ∧ (Rows.empty : Rows HTr).Fits dAtom 1 3 ∧
    (∃ m t a, Decay dAtom (dAtom.lname 1) 1 m t ∧ (dAtom.tr t).A = some a ∧ a ≠ 0) ∧ Link dAtom 1 3 (dAtom.lname 0) 0 0 (1/2) 2 :=
  ⟨dAtom_hf, dAtom_radiates, Rows.empty_fits _ _ _, ⟨_, 0, 1, dAtom_decay, by decide +kernel, by norm_num⟩,
    by decide +kernel, by decide +kernel, by decide +kernel, by decide +kernel, by decide +kernel, fun _ => by
      rw [dAtom_types]; norm_num⟩

/-- All of the decay of F = 3 goes to F' = 2. -/
example : ∃ w' d, hypBranching exactWig Rows.empty (hypText (dAtom.lname 1) 3) dAtom = (w', .ok d) ∧
    shareOf d (hypText (dAtom.lname 0) 1) + shareOf d (hypText (dAtom.lname 0) 2) = 1 := by
  obtain ⟨w', d, d0, h1, h2, h3, -, -, -, h4⟩ := C102_branching exactWig_good dAtom_reachable dAtom_hf dAtom_radiates
    ⟨_, 0, 1, dAtom_decay, by decide +kernel, by norm_num⟩ (Rows.empty_fits dAtom 1 3)
  refine ⟨w', d, h1, ?_⟩
  have hb : (branching (dAtom.lname 1) dAtom).2.map (fun d => d.get? (dAtom.lname 0)) = .ok (some (some 1)) := by decide +kernel
  rw [h2] at hb
  have hg : d0.get? (dAtom.lname 0) = some (some 1) := by simpa [Except.map] using hb
  have hs := (h4 _ 0 0 (1/2) 1 dAtom_decay (by decide +kernel) (by decide +kernel) hg).1
  have hl : hfFs dAtom.I (1/2) = [1, 2] := by decide +kernel
  rw [hl] at hs
  simpa using hs

end AtomTk
