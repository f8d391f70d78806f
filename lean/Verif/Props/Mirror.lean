import Verif.Props.GravityZ

/-! # C152: Zeeman patterns (atom.py:499-503, 591-593, 786-845) -/

namespace AtomTk
open Util World Strengths Racah

/-- The Zeeman line joins the sublevels `m` and `m'`. -/
def ZJoins (w : World) (y : ZTr) (m m' : ℚ) : Prop := (w.zl y.e1).term.mF = some m ∧ (w.zl y.e2).term.mF = some m'

open Classical in
/-- The frequencies of the Zeeman lines of a hyperfine transition, for shifts proportional to m. -/
theorem zpattern {W : Wig} (hW : W.Good) {w : World} (hr : Reachable w) {x : HTr} {i i' : Nat} {J F J' F' : ℚ} (hz : ZReady w x i i' J F J' F') :
    ∃ w' d, zSubs W x [] w = (w', .ok d) ∧ LFrame w w' ∧ ZReady w' x i i' J F J' F' ∧
      (∀ m ∈ zMs F, IsZee w' x.e1 F (zAt w' x.e1 m) m) ∧ (∀ m' ∈ zMs F', IsZee w' x.e2 F' (zAt w' x.e2 m') m') ∧
      (ZSeparated w' x F F' →
        d.vals.Perm (((zPairs F F').filter (fun p => Near x.allowed p.1 p.2 ∧ ZCoupled x.allowed F p.1 F' p.2)).map
          (fun p => w'.mkZTr x i i' (zAt w' x.e1 p.1) (zAt w' x.e2 p.2) J F p.1 J' F' p.2)) ∧
        ∀ s s', (∀ m ∈ zMs F, w'.zShiftHz (zAt w' x.e1 m) = .ok (s * m)) → (∀ m ∈ zMs F', w'.zShiftHz (zAt w' x.e2 m) = .ok (s' * m)) →
          ∃ q sg : ℚ, (sg = 1 ∨ sg = -1) ∧ w'.hFreq x = .ok q ∧ ∀ p ∈ zPairs F F',
            w'.zFreq (w'.mkZTr x i i' (zAt w' x.e1 p.1) (zAt w' x.e2 p.2) J F p.1 J' F' p.2) = .ok (q + sg * (s' * p.2 - s * p.1))) := by
  obtain ⟨w', d, k1, k2, hz, s1, s2, k3⟩ := zlines_perm hW hr hz
  refine ⟨w', d, k1, k2, hz, s1, s2, fun hsep => ⟨k3 hsep, fun s s' hs hs' => ?_⟩⟩
  have hE := hyp_energy hz.hJ1 hz.hF1 hz.p1
  have hE' := hyp_energy hz.hJ2 hz.hF2 hz.p2
  set E := w'.hypE i J F with hEd
  set E' := w'.hypE i' J' F' with hEd'
  have en : ∀ m ∈ zMs F, w'.zHz (zAt w' x.e1 m) = .ok (E + s * m) := by
    intro m hm
    unfold zHz
    rw [hs m hm, (s1 m hm).par, hE]; rfl
  have en' : ∀ m ∈ zMs F', w'.zHz (zAt w' x.e2 m) = .ok (E' + s' * m) := by
    intro m hm
    unfold zHz
    rw [hs' m hm, (s2 m hm).par, hE']; rfl
  obtain ⟨sg, hsg, hpos⟩ : ∃ sg : ℚ, (sg = 1 ∨ sg = -1) ∧ ∀ m ∈ zMs F, ∀ m' ∈ zMs F', 0 ≤ sg * ((E' + s' * m') - (E + s * m)) := by
    rcases hsep with h | h
    · refine ⟨1, .inl rfl, fun m hm m' hm' => ?_⟩
      have := h m hm m' hm' _ _ (en m hm) (en' m' hm')
      linarith
    · refine ⟨-1, .inr rfl, fun m hm m' hm' => ?_⟩
      have := h m hm m' hm' _ _ (en m hm) (en' m' hm')
      linarith
  have habs : ∀ u v : ℚ, 0 ≤ sg * (v - u) → |u - v| = sg * (v - u) := by
    intro u v h
    rw [abs_sub_comm]
    rcases hsg with rfl | rfl
    · rw [one_mul] at h ⊢; exact abs_of_nonneg h
    · rw [abs_of_nonpos (by linarith)]; ring
  have h0 : 0 ≤ sg * (E' - E) := by
    obtain ⟨m, hm⟩ := List.exists_mem_of_ne_nil _ (zMs_ne hz.s1)
    obtain ⟨m', hm'⟩ := List.exists_mem_of_ne_nil _ (zMs_ne hz.s2)
    have a := hpos m hm m' hm'
    have b := hpos _ (zMs_neg hz.s1 hm) _ (zMs_neg hz.s2 hm')
    have : 2 * (sg * (E' - E)) = sg * ((E' + s' * m') - (E + s * m)) + sg * ((E' + s' * -m') - (E + s * -m)) := by ring
    linarith
  refine ⟨sg * (E' - E), sg, hsg, ?_, ?_⟩
  · unfold hFreq
    rw [hE, hE']
    show Except.ok |E - E'| = _
    rw [habs _ _ h0]
  · rintro ⟨m, m'⟩ hp
    obtain ⟨p1, p2⟩ := mem_zPairs.1 hp
    simp only at p1 p2 ⊢
    unfold zFreq mkZTr
    simp only
    rw [en m p1, en' m' p2]
    show Except.ok |(E + s * m) - (E' + s' * m')| = _
    rw [habs _ _ (hpos m p1 m' p2)]
    congr 1
    ring

/-- C152: the Zeeman pattern is symmetric about the hyperfine line.  Each line has a partner with all m reversed, equally strong and as far
on the other side. -/
theorem C152_mirror {W : Wig} (hW : W.Good) {w : World} (hr : Reachable w) {x : HTr} {i i' : Nat} {J F J' F' : ℚ} (hI : IsSpin w.I)
    (hJ : IsSpin J) (hJ' : IsSpin J') (h1 : IsHyp w i J x.e1 F) (h2 : IsHyp w i' J' x.e2 F')
    (g1 : w.B = 0 ∨ ∃ g, Even w x.e1 g) (g2 : w.B = 0 ∨ ∃ g, Even w x.e2 g) :
    ∃ w' d, zSubs W x [] w = (w', .ok d) ∧ (ZSeparated w' x F F' → ∃ q, w'.hFreq x = .ok q ∧ ∀ y ∈ d.vals, ∃ y' ∈ d.vals, ∃ m m' f f',
      ZJoins w' y m m' ∧ ZJoins w' y' (-m) (-m') ∧ y'.rel = y.rel ∧ y'.A = y.A ∧ w'.zFreq y = .ok f ∧ w'.zFreq y' = .ok f' ∧ f + f' = 2 * q) := by
  classical
  obtain ⟨w', d, k1, k2, hz, s1, s2, k3⟩ := zpattern hW hr (IsHyp.zready hI hJ hJ' h1 h2)
  refine ⟨w', d, k1, fun hsep => ?_⟩
  obtain ⟨k3, k4⟩ := k3 hsep
  obtain ⟨s, hs⟩ := linear_of s1 (g1.imp (fun h => by rw [k2.B]; exact h) (zSubs_even k1))
  obtain ⟨s', hs'⟩ := linear_of s2 (g2.imp (fun h => by rw [k2.B]; exact h) (zSubs_even k1))
  obtain ⟨q, sg, -, hq, hf⟩ := k4 s s' hs hs'
  refine ⟨q, hq, fun y hy => ?_⟩
  obtain ⟨⟨m, m'⟩, hp, rfl⟩ := List.mem_map.1 (k3.mem_iff.1 hy)
  obtain ⟨p1, p2⟩ := List.mem_filter.1 hp
  obtain ⟨m1, m2⟩ := mem_zPairs.1 p1
  simp only [decide_eq_true_eq] at p2 m1 m2
  have n1 := zMs_neg hz.s1 m1
  have n2 := zMs_neg hz.s2 m2
  have hp' : (-m, -m') ∈ zPairs F F' := mem_zPairs.2 ⟨n1, n2⟩
  have hn : Near x.allowed (-m) (-m') ∧ ZCoupled x.allowed F (-m) F' (-m') :=
    ⟨p2.1.flip, p2.2.flip hz.s1.isHalfInt (zMs_half hz.s1 m1) hz.s2.isHalfInt (zMs_half hz.s2 m2)⟩
  have hst := zStrength_flip x.allowed hz.s1.isHalfInt (zMs_half hz.s1 m1) hz.s2.isHalfInt (zMs_half hz.s2 m2)
  have hy' : w'.mkZTr x i i' (zAt w' x.e1 (-m)) (zAt w' x.e2 (-m')) J F (-m) J' F' (-m') ∈ d.vals :=
    k3.mem_iff.2 (List.mem_map.2 ⟨(-m, -m'), List.mem_filter.2 ⟨hp', by simpa only [decide_eq_true_eq] using hn⟩, rfl⟩)
  have f1 := hf _ p1
  have f2 := hf _ hp'
  have j1 : ZJoins w' (w'.mkZTr x i i' (zAt w' x.e1 m) (zAt w' x.e2 m') J F m J' F' m') m m' := ⟨(s1 m m1).mF, (s2 m' m2).mF⟩
  have j2 : ZJoins w' (w'.mkZTr x i i' (zAt w' x.e1 (-m)) (zAt w' x.e2 (-m')) J F (-m) J' F' (-m')) (-m) (-m') :=
    ⟨(s1 _ n1).mF, (s2 _ n2).mF⟩
  refine ⟨_, hy', m, m', _, _, j1, j2, ?_, ?_, f1, f2, ?_⟩
  · simp only [mkZTr, hst]
  · simp only [mkZTr, hst]
  · ring

/-- The change of m in a line. -/
theorem coupled_step {al : Types} {F m F' m' : ℚ} (hm : IsHalfInt m) (hm' : IsHalfInt m') (h : ZCoupled al F m F' m') :
    m - m' ∈ ([-2, -1, 0, 1, 2] : List ℚ) ∧ (al.2.2 = false → m - m' ∈ ([-1, 0, 1] : List ℚ)) := by
  rcases h with ⟨-, q, hq, h3⟩ | ⟨h0, q, hq, h3⟩
  · obtain ⟨n, rfl⟩ := half_of (hi_qs1 q hq)
    rw [← half_one] at h3
    rw [three_sel hm hm' h3]
    refine ⟨?_, fun _ => hq⟩
    simp only [List.mem_cons, List.not_mem_nil, or_false] at hq ⊢
    tauto
  · obtain ⟨n, rfl⟩ := half_of (hi_qs2 q hq)
    rw [← half_two] at h3
    rw [three_sel hm hm' h3]
    exact ⟨hq, fun h => by rw [h0] at h; cases h⟩

/-- C152: with the same g factor above and below, lines with the same change of m coincide (the normal Zeeman effect): a dipole line splits
into three, at `q` and `g muB B` to either side of it; the other types have two more at twice the distance. -/
theorem C152_normal {W : Wig} (hW : W.Good) {w : World} (hr : Reachable w) {x : HTr} {i i' : Nat} {J F J' F' : ℚ} (hI : IsSpin w.I)
    (hJ : IsSpin J) (hJ' : IsSpin J') (h1 : IsHyp w i J x.e1 F) (h2 : IsHyp w i' J' x.e2 F') :
    ∃ w' d, zSubs W x [] w = (w', .ok d) ∧ ∀ g, Even w' x.e1 g → Even w' x.e2 g → ZSeparated w' x F F' →
      ∃ q sg : ℚ, (sg = 1 ∨ sg = -1) ∧ w'.hFreq x = .ok q ∧ ∀ y ∈ d.vals, ∃ m m', ZJoins w' y m m' ∧ m - m' ∈ ([-2, -1, 0, 1, 2] : List ℚ) ∧
        (x.allowed.2.2 = false → m - m' ∈ ([-1, 0, 1] : List ℚ)) ∧ w'.zFreq y = .ok (q + sg * (m - m') * (g * muB * w.B)) := by
  classical
  obtain ⟨w', d, k1, k2, hz, s1, s2, k3⟩ := zpattern hW hr (IsHyp.zready hI hJ hJ' h1 h2)
  refine ⟨w', d, k1, fun g e1 e2 hsep => ?_⟩
  obtain ⟨k3, k4⟩ := k3 hsep
  have slope : ∀ {j : Nat} {F : ℚ}, (∀ m ∈ zMs F, IsZee w' j F (zAt w' j m) m) → Even w' j g →
      ∀ m ∈ zMs F, w'.zShiftHz (zAt w' j m) = .ok (g * muB * w.B * m) := by
    intro j F hz he m hm
    unfold zShiftHz
    obtain ⟨-, h1, h2⟩ := he _ _ (hz m hm).get
    rw [(hz m hm).mF]
    simp only [h1, h2, zShift, Except.ok.injEq, k2.B]
    ring
  obtain ⟨q, sg, hsg, hq, hf⟩ := k4 _ _ (slope s1 e1) (slope s2 e2)
  refine ⟨q, -sg, by rcases hsg with rfl | rfl <;> norm_num, hq, fun y hy => ?_⟩
  obtain ⟨⟨m, m'⟩, hp, rfl⟩ := List.mem_map.1 (k3.mem_iff.1 hy)
  obtain ⟨p1, p2⟩ := List.mem_filter.1 hp
  obtain ⟨m1, m2⟩ := mem_zPairs.1 p1
  simp only [decide_eq_true_eq] at p2 m1 m2
  obtain ⟨c1, c2⟩ := coupled_step (zMs_half hz.s1 m1) (zMs_half hz.s2 m2) p2.2
  refine ⟨m, m', ⟨(s1 m m1).mF, (s2 m' m2).mF⟩, c1, c2, ?_⟩
  rw [hf _ p1]
  congr 1
  ring

/-! ## Concrete atoms -/

/-- The hypotheses of `C152_mirror` are met, by a line with components. -/
example : ∃ d q, zSubs exactWig zgLine [] zgAtom = (zgAtom, .ok d) ∧ zgAtom.hFreq zgLine = .ok q ∧ d.vals ≠ [] ∧
    ∀ y ∈ d.vals, ∃ y' ∈ d.vals, ∃ m m' f f', ZJoins zgAtom y m m' ∧ ZJoins zgAtom y' (-m) (-m') ∧ y'.rel = y.rel ∧ y'.A = y.A ∧
      zgAtom.zFreq y = .ok f ∧ zgAtom.zFreq y' = .ok f' ∧ f + f' = 2 * q := by
  have hI : IsSpin zgAtom.I := ⟨1, by decide +kernel⟩
  have hh : IsSpin (1/2) := ⟨1, by norm_num⟩
  obtain ⟨w', d, h1, h2⟩ := C152_mirror exactWig_good zgAtom_reachable (x := zgLine) hI hh hh zgAtom_g zgAtom_e
    (.inr zgAtom_even1) (.inr zgAtom_even3)
  obtain ⟨w2, d2, g1, g2⟩ := C131_total_partial exactWig_good zgAtom_reachable (x := zgLine) hI hh hh zgAtom_g zgAtom_e (by simp [zgLine])
    (by simp [zgLine]) ⟨by norm_num, by norm_num, -1, by norm_num⟩
  obtain rfl := zSubs_state (by decide +kernel) (by decide +kernel) h1
  rw [h1] at g1
  simp only [Prod.mk.injEq, Except.ok.injEq] at g1
  obtain ⟨rfl, rfl⟩ := g1
  obtain ⟨q, hq, h3⟩ := h2 zgAtom_separated
  refine ⟨d, q, h1, hq, ?_, h3⟩
  intro h
  have := g2 zgAtom_separated
  rw [h] at this
  simp at this

/-- Nuclear spin 1/2 in a field, two levels with J = 1/2 and the same g factor. -/
def nzOps : List Op :=
  [.newLevel (demoTerm 'g') 0 2 4 0 0 none,
   .newLevel ⟨['e'], "2P*".toList, some (1/2), none, none, 100, { l := some 1, s := some (1/2) }⟩ 1000000000 2 0 0 0 none,
   .addLevel 0 true none, .addLevel 1 false none, .getLevel "g 2S1/2 F=1 mF=0".toList, .getLevel "e 2P*1/2 F=1 mF=0".toList]

/-- The atom after these calls. -/
def nzAtom : World := runAll nzOps (emptyAtom (1/2) 1)

theorem nzAtom_reachable : Reachable nzAtom := (Reachable.empty (1/2) 1).runAll (by decide +kernel)

theorem nzAtom_g : IsHyp nzAtom 0 (1/2) 1 1 :=
  ⟨by decide +kernel, by decide +kernel, by decide +kernel, by decide +kernel, by decide +kernel, by decide +kernel, by decide +kernel⟩

theorem nzAtom_e : IsHyp nzAtom 1 (1/2) 3 1 :=
  ⟨by decide +kernel, by decide +kernel, by decide +kernel, by decide +kernel, by decide +kernel, by decide +kernel, by decide +kernel⟩

theorem nzAtom_even1 : Even nzAtom 1 1 := even_of _ rfl _ (by decide +kernel)

theorem nzAtom_even3 : Even nzAtom 3 1 := even_of _ rfl _ (by decide +kernel)

theorem nzAtom_separated : ZSeparated nzAtom zgLine 1 1 := by
  left
  intro m hm m' hm' a b ha hb
  have h : ∀ m ∈ zMs 1, ∀ m' ∈ zMs 1, ∃ a b, nzAtom.zHz (zAt nzAtom 1 m) = .ok a ∧ nzAtom.zHz (zAt nzAtom 3 m') = .ok b ∧ a < b := by
    have key : ∀ m ∈ zMs 1, ∀ m' ∈ zMs 1, (match nzAtom.zHz (zAt nzAtom 1 m), nzAtom.zHz (zAt nzAtom 3 m') with
        | .ok a, .ok b => decide (a < b)
        | _, _ => false) = true := by decide +kernel
    intro m hm m' hm'
    have := key m hm m' hm'
    split at this <;> simp_all
  obtain ⟨a', b', e1, e2, e3⟩ := h m hm m' hm'
  rw [show zgLine.e1 = 1 from rfl, e1] at ha
  rw [show zgLine.e2 = 3 from rfl, e2] at hb
  cases ha; cases hb
  exact e3

/-- The hypotheses of `C152_normal` are met: three lines, one of them not shifted. -/
example : ∃ d q, zSubs exactWig zgLine [] nzAtom = (nzAtom, .ok d) ∧ nzAtom.hFreq zgLine = .ok q ∧
    ∀ y ∈ d.vals, nzAtom.zFreq y = .ok q ∨ nzAtom.zFreq y = .ok (q + muB) ∨ nzAtom.zFreq y = .ok (q - muB) := by
  have hI : IsSpin nzAtom.I := ⟨1, by decide +kernel⟩
  have hh : IsSpin (1/2) := ⟨1, by norm_num⟩
  obtain ⟨w', d, h1, h2⟩ := C152_normal exactWig_good nzAtom_reachable (x := zgLine) hI hh hh nzAtom_g nzAtom_e
  obtain rfl := zSubs_state (by decide +kernel) (by decide +kernel) h1
  obtain ⟨q, sg, hsg, hq, h3⟩ := h2 1 nzAtom_even1 nzAtom_even3 nzAtom_separated
  have hB : nzAtom.B = 1 := by decide +kernel
  refine ⟨d, q, h1, hq, fun y hy => ?_⟩
  obtain ⟨m, m', -, -, h4, h5⟩ := h3 y hy
  have h4 := h4 rfl
  rw [h5, hB]
  simp only [List.mem_cons, List.not_mem_nil, or_false] at h4
  rcases hsg with rfl | rfl <;> rcases h4 with h | h | h <;> rw [h] <;> simp only [Except.ok.injEq]
  · right; right; ring
  · left; ring
  · right; left; ring
  · right; left; ring
  · left; ring
  · right; right; ring

end AtomTk
