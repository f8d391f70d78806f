import Verif.Model.Hand
import Verif.Props.SubTrans
import Verif.Props.Energies

/-!
# C173: hyperfine and Zeeman transitions made by hand
-/

namespace AtomTk
open Util Strengths World Racah

/-- The full claim C173: a hyperfine transition made by hand, with a frequency, between the ends of a subtransition of the atom has the types of the
subtransition, and the frequency. -/
def C173_full : Prop := ∀ (W : Wig) (w : World) (t : Nat) (J J' : ℚ) (f : ℚ), W.Good → Reachable w → SubReady w t J J' → 0 < f →
  ∀ (w' : World) (d : Dict (Str × Str) HTr), hSubs W t [] w = (w', .ok d) → ∀ x ∈ d.vals,
    ∃ h, w'.handHTr W x.e1 x.e2 (some f) none = .ok h ∧ h.x.allowed = x.allowed ∧ w'.handFreq h = .ok f

/-- What is made: the ends in the order of their energies, no rate, relative strength 1, and the types that the angular momenta alone allow, whatever the
parities; the electric and the magnetic dipole go together. -/
theorem C173_made {W : Wig} (hW : W.Good) {w : World} {i1 i2 a b : Nat} {J1 F1 J2 F2 : ℚ} (hI : IsSpin w.I) (s1 : IsSpin J1) (s2 : IsSpin J2)
    (h1 : IsHyp w i1 J1 a F1) (h2 : IsHyp w i2 J2 b F2) (f A : Option ℚ) :
    ∃ h, w.handHTr W a b f A = .ok h ∧ h.x.e1 = a ∧ h.x.e2 = b ∧ h.setFreq = f ∧ h.x.A = none ∧ h.x.rel = 1 ∧
      (w.hypE i1 J1 F1 < w.hypE i2 J2 F2 → h.x.lower = a ∧ h.x.upper = b) ∧ (w.hypE i2 J2 F2 ≤ w.hypE i1 J1 F1 → h.x.lower = b ∧ h.x.upper = a) ∧
      (h.x.allowed.1 = true ↔ six J1 J2 1 F2 F1 w.I ≠ 0) ∧ (h.x.allowed.2.1 = true ↔ six J1 J2 1 F2 F1 w.I ≠ 0) ∧
      (h.x.allowed.2.2 = true ↔ six J1 J2 2 F2 F1 w.I ≠ 0) := by
  have f1 := (hfFs_spin hI s1 h1.mem).isHalfInt
  have f2 := (hfFs_spin hI s2 h2.mem).isHalfInt
  have e : w.handHTr W a b f A = .ok ⟨⟨w.ntr, a, b, if w.hypE i2 J2 F2 > w.hypE i1 J1 F1 then a else b,
      if w.hypE i2 J2 F2 > w.hypE i1 J1 F1 then b else a, none, 1, hTypes (true, true, true) w.I J1 F1 J2 F2⟩, f⟩ := by
    unfold handHTr
    rw [h1.energy, h2.energy, h1.J, h1.F, h2.J, h2.F]
    simp only [hAllowed_ok hW _ hI.isHalfInt s1.isHalfInt f1 s2.isHalfInt f2]
    rfl
  refine ⟨_, e, rfl, rfl, rfl, rfl, rfl, ?_, ?_, ?_⟩
  · intro h; exact ⟨if_pos h, if_pos h⟩
  · intro h; exact ⟨if_neg (not_lt.2 h), if_neg (not_lt.2 h)⟩
  · simp [hTypes]

/-- The frequency asked for is not the frequency: that is the distance of the two levels, whatever was asked for. -/
theorem C173_freq {W : Wig} (hW : W.Good) {w : World} {i1 i2 a b : Nat} {J1 F1 J2 F2 : ℚ} (hI : IsSpin w.I) (s1 : IsSpin J1) (s2 : IsSpin J2)
    (h1 : IsHyp w i1 J1 a F1) (h2 : IsHyp w i2 J2 b F2) (f A : Option ℚ) {h : HandH} (hh : w.handHTr W a b f A = .ok h) :
    w.handFreq h = .ok |w.hypE i1 J1 F1 - w.hypE i2 J2 F2| := by
  obtain ⟨h', e, e1, e2, -⟩ := C173_made hW hI s1 s2 h1 h2 f A
  rw [hh] at e
  cases e
  unfold handFreq hFreq
  rw [e1, e2, h1.energy, h2.energy]
  rfl

/-- Setting the frequency raises `AttributeError` and changes nothing. -/
theorem C173_set {W : Wig} (hW : W.Good) {w : World} {i1 i2 a b : Nat} {J1 F1 J2 F2 : ℚ} (hI : IsSpin w.I) (s1 : IsSpin J1) (s2 : IsSpin J2)
    (h1 : IsHyp w i1 J1 a F1) (h2 : IsHyp w i2 J2 b F2) (f A : Option ℚ) {h : HandH} (hh : w.handHTr W a b f A = .ok h) (f' : ℚ) :
    handSet h f' w = (w, .error .AttributeError) := by
  unfold handSet
  rw [C173_freq hW hI s1 s2 h1 h2 f A hh]

/-- The subtransition between the same two levels: it has the same ends, and of the types of the one made by hand those that its parent has. -/
theorem C173_types_partial {W : Wig} (hW : W.Good) {w : World} {t a b : Nat} {J1 F1 J2 F2 : ℚ} (hI : IsSpin w.I) (s1 : IsSpin J1) (s2 : IsSpin J2)
    (h1 : IsHyp w (w.tr t).e1 J1 a F1) (h2 : IsHyp w (w.tr t).e2 J2 b F2) (f A : Option ℚ) {h : HandH} (hh : w.handHTr W a b f A = .ok h) :
    ∃ x, w.newHTr W t a b = .ok x ∧ x.lower = h.x.lower ∧ x.upper = h.x.upper ∧
      (x.allowed.1 = true ↔ h.x.allowed.1 = true ∧ (w.tr t).allowed.1 = true) ∧
      (x.allowed.2.1 = true ↔ h.x.allowed.2.1 = true ∧ (w.tr t).allowed.2.1 = true) ∧
      (x.allowed.2.2 = true ↔ h.x.allowed.2.2 = true ∧ (w.tr t).allowed.2.2 = true) := by
  obtain ⟨h', e, -, -, -, -, -, q1, q2, q3, q4, q5⟩ := C173_made hW hI s1 s2 h1 h2 f A
  rw [hh] at e
  cases e
  refine ⟨_, newHTr_ok hW hI s1 s2 h1 h2, ?_, ?_, ?_, ?_, ?_⟩
  · unfold mkHTr
    rcases lt_or_ge (w.hypE (w.tr t).e1 J1 F1) (w.hypE (w.tr t).e2 J2 F2) with hl | hl
    · rw [(q1 hl).1]; exact if_pos hl
    · rw [(q2 hl).1]; exact if_neg (not_lt.2 hl)
  · unfold mkHTr
    rcases lt_or_ge (w.hypE (w.tr t).e1 J1 F1) (w.hypE (w.tr t).e2 J2 F2) with hl | hl
    · rw [(q1 hl).2]; exact if_pos hl
    · rw [(q2 hl).2]; exact if_neg (not_lt.2 hl)
  · rw [q3]; simp [mkHTr, hTypes]
  · rw [q4]; simp [mkHTr, hTypes]
  · rw [q5]; simp [mkHTr, hTypes]

/-- An electric dipole line has other types when made by hand: the magnetic dipole comes with it. -/
theorem C173_dipole {W : Wig} (hW : W.Good) {w : World} (hr : Reachable w) {t a b : Nat} (ht : t < w.ntr) {J1 F1 J2 F2 : ℚ} (hI : IsSpin w.I) (s1 : IsSpin J1)
    (s2 : IsSpin J2) (hJ1 : (w.lv (w.tr t).e1).term.J = some J1) (hJ2 : (w.lv (w.tr t).e2).term.J = some J2)
    (h1 : IsHyp w (w.tr t).e1 J1 a F1) (h2 : IsHyp w (w.tr t).e2 J2 b F2) (f A : Option ℚ) {h : HandH} (hh : w.handHTr W a b f A = .ok h) {x : HTr}
    (hx : w.newHTr W t a b = .ok x) (hd : x.allowed.1 = true) : x.allowed.2.1 = false ∧ x.allowed.2.2 = false ∧ h.x.allowed.1 = true ∧ h.x.allowed.2.1 = true := by
  obtain ⟨x', e, -, -, c1, c2, c3⟩ := C173_types_partial hW hI s1 s2 h1 h2 f A hh
  rw [hx] at e
  cases e
  obtain ⟨h', e, -, -, -, -, -, -, -, q3, q4, -⟩ := C173_made hW hI s1 s2 h1 h2 f A
  rw [hh] at e
  cases e
  have hp := C31_exclusive w t J1 J2 hr ht hJ1 hJ2 (c1.1 hd).2
  rw [hp] at c2 c3
  refine ⟨?_, ?_, (c1.1 hd).1, q4.2 (q3.1 (c1.1 hd).1)⟩
  · rw [Bool.eq_false_iff]; intro hc; simpa using (c2.1 hc).2
  · rw [Bool.eq_false_iff]; intro hc; simpa using (c3.1 hc).2

/-- The Zeeman lines of a transition made by hand between levels a dipole connects: they change the magnetic number by 1 at most, although the quadrupole is
among the types, and they have no rate. -/
theorem C173_lines {W : Wig} (hW : W.Good) {w : World} (hr : Reachable w) {i1 i2 a b : Nat} {J1 F1 J2 F2 : ℚ} (hI : IsSpin w.I) (s1 : IsSpin J1) (s2 : IsSpin J2)
    (h1 : IsHyp w i1 J1 a F1) (h2 : IsHyp w i2 J2 b F2) (f A : Option ℚ) {h : HandH} (hh : w.handHTr W a b f A = .ok h) (h6 : six J1 J2 1 F2 F1 w.I ≠ 0) :
    ∃ w' d, zSubs W h.x [] w = (w', .ok d) ∧ ∀ y ∈ d.vals, y.A = none ∧ y.rel = 1 ∧
      ∃ m m', (w'.zl y.e1).term.mF = some m ∧ (w'.zl y.e2).term.mF = some m' ∧ |m - m'| ≤ 1 := by
  obtain ⟨h', e, e1, e2, -, eA, -, -, -, q3, q4, -⟩ := C173_made hW hI s1 s2 h1 h2 f A
  rw [hh] at e
  cases e
  have hz : ZReady w h.x i1 i2 J1 F1 J2 F2 := by
    refine ⟨?_, ?_, ?_, ?_, ?_, ?_, ?_, ?_, hfFs_spin hI s1 h1.mem, hfFs_spin hI s2 h2.mem⟩ <;> simp only [e1, e2]
    · exact h1.lt
    · exact h2.lt
    · exact h1.J
    · exact h2.J
    · exact h1.F
    · exact h2.F
    · exact h1.par
    · exact h2.par
  obtain ⟨w', d, g1, g2, g3, g4, g5, g6, g7, g8, -⟩ := zSubs_spec hW hr.subInv hz
  refine ⟨w', d, g1, ?_⟩
  intro y hy
  obtain ⟨k, hk⟩ := (Dict.mem_vals g5 y).1 hy
  obtain ⟨a', b', m1, m2, k1, k2, k3, rfl, -, -⟩ := g8 k y hk
  refine ⟨by simp [mkZTr, eA], by simp [mkZTr, eA], m1, m2, k1.mF, k2.mF, ?_⟩
  have hm : maxDelta h.x.allowed = some 1 := by
    unfold maxDelta Types.any
    rw [q3.2 h6, q4.2 h6]
    simp
  unfold pairOk at k3
  rw [hm] at k3
  simpa using k3

/-- A Zeeman transition cannot be made by hand. -/
theorem C173_never (w : World) (a b : Nat) : (∃ e, w.handZTr a b = .error e) ∧
    ∀ x y, w.zHz a = .ok x → w.zHz b = .ok y → w.handZTr a b = .error .AttributeError := by
  constructor
  · unfold handZTr
    cases w.zHz b with
    | error e => exact ⟨e, rfl⟩
    | ok y =>
      cases w.zHz a with
      | error e => exact ⟨e, rfl⟩
      | ok x => exact ⟨_, rfl⟩
  · intro x y hx hy
    unfold handZTr
    rw [hx, hy]
    rfl

/-! ### The D2 line with nuclear spin 3/2 -/

/-- The line F = 1 to F' = 2 made by hand. -/
theorem dAtom_hand : ∃ w' d a b h x, hSubs exactWig 0 [] dAtom = (w', .ok d) ∧ x ∈ d.vals ∧ x.e1 = a ∧ x.e2 = b ∧
    IsHyp w' 0 (1/2) a 1 ∧ IsHyp w' 1 (3/2) b 2 ∧ w'.handHTr exactWig a b (some 7) none = .ok h ∧
    x.allowed = (true, false, false) ∧ h.x.allowed.1 = true ∧ h.x.allowed.2.1 = true ∧ handSet h 7 w' = (w', .error .AttributeError) := by
  obtain ⟨w', d, hd, h2, h3, h4, h5, h6, h7, h8, h9⟩ := hSubs_spec exactWig_good dAtom_reachable.subInv dAtom_ready
  obtain ⟨a, b, ha, hb, hg⟩ := dAtom_pair hd (F := 1) (F' := 2) (by decide +kernel) (by decide +kernel) dAtom_12
  have hI : IsSpin w'.I := h4.hI
  obtain ⟨h, e, -, -, -, -, -, -, -, q3, q4, -⟩ := C173_made exactWig_good hI h4.s1 h4.s2 ha hb (some 7) none
  have six1 : six (1/2) (3/2) 1 2 1 w'.I ≠ 0 := by
    rw [h2.I]
    rcases dAtom_12 with ⟨-, h⟩ | ⟨h, -⟩
    · exact h
    · rw [dAtom_types] at h; simp at h
  refine ⟨w', d, a, b, h, _, hd, Dict.mem_vals_of_get hg, rfl, rfl, ha, hb, e, ?_, q3.2 six1, q4.2 six1, C173_set exactWig_good hI h4.s1 h4.s2 ha hb _ _ e 7⟩
  show hTypes (w'.tr 0).allowed w'.I (1/2) 1 (3/2) 2 = _
  rw [h2.tr, dAtom_types]
  simpa [hTypes] using six1

/-- The claim is false, for the types already. -/
theorem C173_fails : ¬C173_full := by
  intro hc
  obtain ⟨w', d, a, b, h, x, hd, hx, rfl, rfl, -, -, e, ex, -, e2, -⟩ := dAtom_hand
  obtain ⟨h', g1, g2, -⟩ := hc exactWig dAtom 0 (1/2) (3/2) 7 exactWig_good dAtom_reachable dAtom_ready (by norm_num) w' d hd x hx
  rw [e] at g1
  cases g1
  rw [g2, ex] at e2
  cases e2

/-- And for the frequency: no frequency other than the distance is reached. -/
theorem C173_freq_fails : ¬∀ (w : World) (i1 i2 a b : Nat) (J1 F1 J2 F2 f : ℚ) (h : HandH), IsSpin w.I → IsSpin J1 → IsSpin J2 → IsHyp w i1 J1 a F1 →
    IsHyp w i2 J2 b F2 → 0 < f → w.handHTr exactWig a b (some f) none = .ok h → w.handFreq h = .ok f := by
  intro hc
  obtain ⟨w', d, a, b, h, x, hd, -, rfl, rfl, ha, hb, -⟩ := dAtom_hand
  obtain ⟨w2, d2, g1, -, -, g4, -⟩ := hSubs_spec exactWig_good dAtom_reachable.subInv dAtom_ready
  rw [hd] at g1
  simp only [Prod.mk.injEq, Except.ok.injEq] at g1
  obtain ⟨rfl, rfl⟩ := g1
  obtain ⟨k, e, -⟩ := C173_made exactWig_good g4.hI g4.s1 g4.s2 ha hb (some 1) none
  obtain ⟨k', e', -⟩ := C173_made exactWig_good g4.hI g4.s1 g4.s2 ha hb (some 2) none
  have c1 := hc _ _ _ _ _ _ _ _ _ 1 k g4.hI g4.s1 g4.s2 ha hb (by norm_num) e
  have c2 := hc _ _ _ _ _ _ _ _ _ 2 k' g4.hI g4.s1 g4.s2 ha hb (by norm_num) e'
  rw [C173_freq exactWig_good g4.hI g4.s1 g4.s2 ha hb _ _ e] at c1
  rw [C173_freq exactWig_good g4.hI g4.s1 g4.s2 ha hb _ _ e'] at c2
  rw [c1] at c2
  norm_num at c2

end AtomTk
