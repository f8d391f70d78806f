import Verif.Props.Linked

/-! # C125: the centre of gravity of the hyperfine lines of a transition (atom.py:505-515, 591-593, 728-783) -/

namespace AtomTk
open Util World Strengths Racah

/-- The sublevel `F` of level `i`. -/
def subAt (w : World) (i : Nat) (F : ℚ) : Nat := ((w.lv i).subs.get? (fKey F)).getD 0

theorem World.IsHyp.subAt {w : World} {i j : Nat} {J F : ℚ} (h : IsHyp w i J j F) : subAt w i F = j := by
  unfold AtomTk.subAt
  rw [h.get]; rfl

/-- All pairs of hyperfine numbers of two levels. -/
def allPairs (I J J' : ℚ) : List (ℚ × ℚ) := (hfFs I J).flatMap fun F => (hfFs I J').map fun F' => (F, F')

theorem mem_allPairs {I J J' : ℚ} {p : ℚ × ℚ} : p ∈ allPairs I J J' ↔ p.1 ∈ hfFs I J ∧ p.2 ∈ hfFs I J' := by
  obtain ⟨F, F'⟩ := p
  unfold allPairs
  simp only [List.mem_flatMap, List.mem_map, Prod.mk.injEq]
  constructor
  · rintro ⟨a, ha, b, hb, rfl, rfl⟩; exact ⟨ha, hb⟩
  · rintro ⟨ha, hb⟩; exact ⟨F, ha, F', hb, rfl, rfl⟩

theorem allPairs_nodup {I J J' : ℚ} (hI : IsSpin I) (hJ : IsSpin J) (hJ' : IsSpin J') : (allPairs I J J').Nodup := by
  unfold allPairs
  rw [List.nodup_flatMap]
  constructor
  · intro F _
    exact (hfFs_nodup hI hJ').map (fun a b h => (Prod.mk.inj h).2)
  · refine (hfFs_nodup hI hJ).imp (fun {a b} hab => ?_)
    rw [Function.onFun, List.disjoint_left]
    intro p h1 h2
    simp only [List.mem_map] at h1 h2
    obtain ⟨x, -, rfl⟩ := h1
    obtain ⟨y, -, h⟩ := h2
    exact hab (Prod.mk.inj h).1.symm

theorem sum_allPairs (I J J' : ℚ) (f : ℚ → ℚ → ℝ) : ((allPairs I J J').map (fun p => f p.1 p.2)).sum =
    ((hfFs I J).map (fun F => ((hfFs I J').map (fun F' => f F F')).sum)).sum := by
  unfold allPairs
  induction hfFs I J with
  | nil => rfl
  | cons a l ih =>
    rw [List.flatMap_cons, List.map_append, List.sum_append, ih, List.map_map]
    rfl

/-- The sums may be taken in either order. -/
theorem sum_sum_comm {α β : Type _} (l : List α) (m : List β) (f : α → β → ℝ) :
    (l.map (fun a => (m.map (fun b => f a b)).sum)).sum = (m.map (fun b => (l.map (fun a => f a b)).sum)).sum := by
  induction l with
  | nil => simp
  | cons a l ih =>
    simp only [List.map_cons, List.sum_cons]
    rw [ih, ← List.sum_map_add]

open Classical in
/-- The lines of a transition of separated manifolds: one for each pair of sublevels that the code looks at and that are coupled. -/
theorem lines_perm {W : Wig} (hW : W.Good) {w : World} (hr : Reachable w) {t : Nat} {J J' : ℚ} (hs : SubReady w t J J')
    (hsep : Separated w t J J') :
    ∃ w' d, hSubs W t [] w = (w', .ok d) ∧ LFrame w w' ∧
      (∀ F ∈ hfFs w.I J, IsHyp w' (w.tr t).e1 J (subAt w' (w.tr t).e1 F) F) ∧
      (∀ F' ∈ hfFs w.I J', IsHyp w' (w.tr t).e2 J' (subAt w' (w.tr t).e2 F') F') ∧
      d.vals.Perm (((allPairs w.I J J').filter (fun p => Near (w.tr t).allowed p.1 p.2 ∧ Coupled (w.tr t).allowed w.I J p.1 J' p.2)).map
        (fun p => w'.mkHTr t (subAt w' (w.tr t).e1 p.1) (subAt w' (w.tr t).e2 p.2) J p.1 J' p.2)) := by
  obtain ⟨w', d, h1, h2, h3, h4, h5, h6, h7, h8, h9⟩ := hSubs_spec hW hr.subInv hs
  have s1 : ∀ F ∈ hfFs w.I J, IsHyp w' (w.tr t).e1 J (subAt w' (w.tr t).e1 F) F := by
    intro F hF
    obtain ⟨a, ha⟩ := hyp_all h3 h4.hJ1 h4.hI h4.s1 h4.F1 h6 (F := F) (by rw [h2.I]; exact hF)
    rw [h2.tr] at ha
    rw [ha.subAt]; exact ha
  have s2 : ∀ F' ∈ hfFs w.I J', IsHyp w' (w.tr t).e2 J' (subAt w' (w.tr t).e2 F') F' := by
    intro F hF
    obtain ⟨a, ha⟩ := hyp_all h3 h4.hJ2 h4.hI h4.s2 h4.F2 h7 (F := F) (by rw [h2.I]; exact hF)
    rw [h2.tr] at ha
    rw [ha.subAt]; exact ha
  refine ⟨w', d, h1, h2, s1, s2, ?_⟩
  have n1 : d.vals.Nodup := by
    have e : d.keys = d.vals.map w'.hKey := by
      unfold Dict.keys Dict.vals
      rw [List.map_map]
      refine List.map_congr_left ?_
      rintro ⟨k, x⟩ hm
      obtain ⟨a, b, F, F', -, -, -, -, -, hk⟩ := h8 k x (Dict.get?_of_mem h5 hm)
      exact hk.symm
    rw [e] at h5
    exact h5.of_map
  have n2 : (((allPairs w.I J J').filter (fun p => Near (w.tr t).allowed p.1 p.2 ∧ Coupled (w.tr t).allowed w.I J p.1 J' p.2)).map
      (fun p => w'.mkHTr t (subAt w' (w.tr t).e1 p.1) (subAt w' (w.tr t).e2 p.2) J p.1 J' p.2)).Nodup := by
    refine List.Nodup.map_on ?_ ((allPairs_nodup hs.hI hs.s1 hs.s2).filter _)
    rintro ⟨F, F'⟩ hp ⟨G, G'⟩ hq he
    obtain ⟨p1, p2⟩ := mem_allPairs.1 (List.mem_filter.1 hp).1
    obtain ⟨q1, q2⟩ := mem_allPairs.1 (List.mem_filter.1 hq).1
    have e1 : subAt w' (w.tr t).e1 F = subAt w' (w.tr t).e1 G := congrArg HTr.e1 he
    have e2 : subAt w' (w.tr t).e2 F' = subAt w' (w.tr t).e2 G' := congrArg HTr.e2 he
    have f1 := (s1 F p1).F
    have f2 := (s2 F' p2).F
    rw [e1, (s1 G q1).F] at f1
    rw [e2, (s2 G' q2).F] at f2
    rw [Option.some.inj f1, Option.some.inj f2]
  rw [List.perm_ext_iff_of_nodup n1 n2]
  intro x
  rw [Dict.mem_vals h5, List.mem_map]
  constructor
  · rintro ⟨k, hk⟩
    obtain ⟨a, b, F, F', i1, i2, i3, rfl, i4, -⟩ := h8 k x hk
    have i4 := (coupled_iff _ _ _ _ _ _).1 i4
    have i3 := (pairOk_near _ _ _).1 i3
    have m1 := i1.mem
    have m2 := i2.mem
    rw [h2.I] at m1 m2 i4
    rw [h2.tr] at i1 i2 i3 i4
    refine ⟨(F, F'), List.mem_filter.2 ⟨mem_allPairs.2 ⟨m1, m2⟩, ?_⟩, ?_⟩
    · simpa using ⟨i3, i4⟩
    · simp only
      rw [i1.subAt, i2.subAt]
  · rintro ⟨⟨F, F'⟩, hp, rfl⟩
    obtain ⟨hp, hq⟩ := List.mem_filter.1 hp
    obtain ⟨p1, p2⟩ := mem_allPairs.1 hp
    simp only [decide_eq_true_eq] at hq p1 p2 ⊢
    have ha := s1 F p1
    have hb := s2 F' p2
    rw [← h2.tr] at ha hb
    have hc' : (w'.mkHTr t (subAt w' (w'.tr t).e1 F) (subAt w' (w'.tr t).e2 F') J F J' F').allowed.any = true := by
      refine (coupled_iff _ _ _ _ _ _).2 ?_
      rw [h2.tr, h2.I]; exact hq.2
    obtain ⟨-, h10⟩ := h9 _ _ F F' ha hb (by rw [h2.tr]; exact (pairOk_near _ _ _).2 hq.1) hc'
    have h11 := h10 (fun a' b' G G' g1 g2 hk => sep_inj h4.hI h4.s1 h4.s2 (hsep.frame h2) ha hb g1 g2 hk)
    rw [h2.tr] at h11
    exact ⟨_, h11⟩

/-- Leaving out the pairs that are not looked at or not coupled leaves out nothing of a sum weighted with the strengths. -/
theorem sum_lines {al : Types} {I J J' : ℚ} (hI : IsSpin I) (hJ : IsSpin J) (hJ' : IsSpin J') (l : List (ℚ × ℚ)) (hl : ∀ p ∈ l, p ∈ allPairs I J J')
    (f : ℚ × ℚ → ℝ) (q : ℚ × ℚ → Bool) (hq : ∀ p ∈ l, q p = false → ¬(Near al p.1 p.2 ∧ Coupled al I J p.1 J' p.2)) :
    ((l.filter q).map (fun p => hStrength al I J p.1 J' p.2 * f p)).sum = (l.map (fun p => hStrength al I J p.1 J' p.2 * f p)).sum := by
  induction l with
  | nil => rfl
  | cons p l ih =>
    have ih := ih (fun x hx => hl x (.tail _ hx)) (fun x hx => hq x (.tail _ hx))
    rw [List.filter_cons]
    by_cases h : q p = true
    · rw [if_pos h, List.map_cons, List.map_cons, List.sum_cons, List.sum_cons, ih]
    · rw [if_neg h, List.map_cons, List.sum_cons, ih]
      have hn := hq p (.head _) (by simpa using h)
      obtain ⟨m1, m2⟩ := mem_allPairs.1 (hl p (.head _))
      have hz : hStrength al I J p.1 J' p.2 = 0 := by
        by_cases hN : Near al p.1 p.2
        · have hC : ¬Coupled al I J p.1 J' p.2 := fun hC => hn ⟨hN, hC⟩
          unfold hStrength
          unfold Coupled at hC
          push Not at hC
          split
          · rename_i h1
            rw [hC.1 (by simpa using h1)]; ring
          · split
            · rename_i h2
              rw [hC.2 h2]; ring
            · rfl
        · exact hStrength_near (hfFs_spin hI hJ m1).isHalfInt (hfFs_spin hI hJ' m2).isHalfInt hN
      rw [hz]; ring

/-- The mean hyperfine energy, weighted with the numbers of states. -/
theorem hypE_mean {w : World} (hI : IsSpin w.I) {i : Nat} {J : ℚ} (hJ : IsSpin J) :
    ((hfFs w.I J).map (fun F => (2 * F + 1) * w.hypE i J F)).sum = (2 * w.I + 1) * (2 * J + 1) * w.eHz i := by
  have h := (C19_centroid (w.lv i).hfA (w.lv i).hfB (w.lv i).hfC w.I J 0 hI hJ _ (fun F _ => hfShift_ok _ _ _ _ _ F)).1
  have e : (fun F => (2 * F + 1) * w.hypE i J F) = fun F => w.eHz i * (2 * F + 1) +
      (2 * F + 1) * ((w.lv i).hfA * iDotJ w.I J F + (w.lv i).hfB * e2 w.I J F + (w.lv i).hfC * m3 w.I J F) := by
    funext F
    unfold hypE
    ring
  rw [e, sum_map_lin, h, sum_degeneracy hI hJ]
  ring

/-- The strengths weighted with a function of one of the two numbers. -/
theorem strength_mean {al : Types} {I J J' : ℚ} (hI : IsSpin I) (hJ : IsSpin J) (hJ' : IsSpin J') (hany : al.any = true)
    (hc : Couples J J' (leading al)) (g : ℚ → ℚ) :
    ((allPairs I J J').map (fun p => hStrength al I J p.1 J' p.2 * ((g p.1 : ℚ) : ℝ))).sum =
      ((((hfFs I J).map (fun F => (2 * F + 1) * g F)).sum / (2 * J + 1) : ℚ) : ℝ) := by
  rw [sum_allPairs I J J' (fun F F' => hStrength al I J F J' F' * ((g F : ℚ) : ℝ))]
  have e : ∀ F ∈ hfFs I J, ((hfFs I J').map (fun F' => hStrength al I J F J' F' * ((g F : ℚ) : ℝ))).sum =
      ((((2 * F + 1) * g F : ℚ) : ℝ)) * (((2 * J + 1 : ℚ) : ℝ))⁻¹ := by
    intro F hF
    rw [List.sum_map_mul_right, hStrength_sum hI hJ hJ' hany hc hF]
    push_cast
    ring
  rw [List.map_congr_left e, List.sum_map_mul_right, Rat.cast_div, Rat.cast_list_sum, List.map_map, div_eq_mul_inv]
  rfl

theorem couples_comm {a b x : ℚ} (h : Couples a b x) : Couples b a x := by
  obtain ⟨h1, h2, n, h3⟩ := h
  exact ⟨by rw [abs_sub_comm]; exact h1, by rw [add_comm]; exact h2, n, by rw [add_comm b a]; exact h3⟩

theorem strength_mean' {al : Types} {I J J' : ℚ} (hI : IsSpin I) (hJ : IsSpin J) (hJ' : IsSpin J') (hany : al.any = true)
    (hc : Couples J J' (leading al)) (g : ℚ → ℚ) :
    ((allPairs I J J').map (fun p => hStrength al I J p.1 J' p.2 * ((g p.2 : ℚ) : ℝ))).sum =
      ((((hfFs I J').map (fun F => (2 * F + 1) * g F)).sum / (2 * J' + 1) : ℚ) : ℝ) := by
  rw [← strength_mean hI hJ' hJ hany (couples_comm hc) g, sum_allPairs I J J' (fun F F' => hStrength al I J F J' F' * ((g F' : ℚ) : ℝ)),
    sum_allPairs I J' J (fun F' F => hStrength al I J' F' J F * ((g F' : ℚ) : ℝ)), sum_sum_comm]
  simp only [hStrength_symm al I J _ J' _]

/-- The mean frequency of the lines `l` of transition `t`, weighted with their strengths, is the frequency of the transition. -/
def Gravity (w w' : World) (t : Nat) (l : List HTr) : Prop :=
  ∃ f : HTr → ℚ, (∀ x ∈ l, w'.hFreq x = .ok (f x)) ∧
    (l.map (fun x => x.rel * ((f x : ℚ) : ℝ))).sum = (l.map (fun x => x.rel)).sum * ((w.freqHz t : ℚ) : ℝ)

/-- The full claim. -/
def C125_full : Prop := ∀ (W : Wig) (w : World) (t : Nat) (J J' : ℚ), W.Good → Reachable w → SubReady w t J J' →
  Types.any (w.tr t).allowed = true → Couples J J' (leading (w.tr t).allowed) →
  ∃ w' d, hSubs W t [] w = (w', .ok d) ∧ Gravity w w' t d.vals

/-- C125 for a transition that has a rate and whose two manifolds do not overlap, whatever the hyperfine constants: the lines have
the frequency of the transition as their centre of gravity, and strengths that add up to `2I + 1`.  Missing: transitions without a rate (`C125_fails`), manifolds that
overlap (`C125_inside_fails`). -/
theorem C125_gravity_partial {W : Wig} (hW : W.Good) {w : World} (hr : Reachable w) {t : Nat} {J J' : ℚ} (hs : SubReady w t J J')
    (hany : Types.any (w.tr t).allowed = true) (hc : Couples J J' (leading (w.tr t).allowed)) (hsep : Separated w t J J')
    (hA : (w.tr t).A ≠ none) :
    ∃ w' d, hSubs W t [] w = (w', .ok d) ∧ (d.vals.map (fun x => x.rel)).sum = ((2 * w.I + 1 : ℚ) : ℝ) ∧ Gravity w w' t d.vals := by
  classical
  obtain ⟨w', d, h1, h2, s1, s2, h3⟩ := lines_perm hW hr hs hsep
  obtain ⟨A, hA⟩ := Option.ne_none_iff_exists'.1 hA
  refine ⟨w', d, h1, ?_⟩
  set al := (w.tr t).allowed with hal
  let sg : ℚ := if (∀ F ∈ hfFs w.I J, ∀ F' ∈ hfFs w.I J', w.hypE (w.tr t).e1 J F < w.hypE (w.tr t).e2 J' F') then 1 else -1
  let D : ℚ × ℚ → ℚ := fun p => sg * (w.hypE (w.tr t).e2 J' p.2 - w.hypE (w.tr t).e1 J p.1)
  have hD : ∀ p ∈ allPairs w.I J J', D p = |w.hypE (w.tr t).e1 J p.1 - w.hypE (w.tr t).e2 J' p.2| ∧ 0 ≤ D p := by
    rintro ⟨F, F'⟩ hp
    obtain ⟨p1, p2⟩ := mem_allPairs.1 hp
    by_cases hh : ∀ F ∈ hfFs w.I J, ∀ F' ∈ hfFs w.I J', w.hypE (w.tr t).e1 J F < w.hypE (w.tr t).e2 J' F'
    · have := hh F p1 F' p2
      simp only [D, sg, if_pos hh]
      rw [abs_sub_comm, abs_of_pos (by linarith)]
      constructor <;> linarith
    · have := (hsep.resolve_left hh) F p1 F' p2
      simp only [D, sg, if_neg hh]
      rw [abs_of_nonneg (by linarith)]
      constructor <;> linarith
  have hfq : ∀ p ∈ allPairs w.I J J', w'.hFreq (w'.mkHTr t (subAt w' (w.tr t).e1 p.1) (subAt w' (w.tr t).e2 p.2) J p.1 J' p.2) = .ok (D p) := by
    rintro ⟨F, F'⟩ hp
    obtain ⟨p1, p2⟩ := mem_allPairs.1 hp
    unfold hFreq mkHTr
    simp only
    rw [(s1 F p1).energy, (s2 F' p2).energy, h2.hypE, h2.hypE, (hD _ hp).1]
    rfl
  have hrel : ∀ p : ℚ × ℚ, (w'.mkHTr t (subAt w' (w.tr t).e1 p.1) (subAt w' (w.tr t).e2 p.2) J p.1 J' p.2).rel = hStrength al w.I J p.1 J' p.2 := by
    intro p
    unfold mkHTr
    simp only
    rw [h2.tr, hA, h2.I]
  have hq : ∀ p ∈ allPairs w.I J J', decide (Near al p.1 p.2 ∧ Coupled al w.I J p.1 J' p.2) = false →
      ¬(Near al p.1 p.2 ∧ Coupled al w.I J p.1 J' p.2) := fun p _ h => by simpa using h
  have tot : (d.vals.map (fun x => x.rel)).sum = ((2 * w.I + 1 : ℚ) : ℝ) := by
    rw [(h3.map (fun x => x.rel)).sum_eq, List.map_map]
    have e : ((fun x : HTr => x.rel) ∘ fun p : ℚ × ℚ => w'.mkHTr t (subAt w' (w.tr t).e1 p.1) (subAt w' (w.tr t).e2 p.2) J p.1 J' p.2) =
        fun p => hStrength al w.I J p.1 J' p.2 * 1 := by
      funext p
      rw [mul_one]
      exact hrel p
    rw [e, sum_lines hs.hI hs.s1 hs.s2 _ (fun _ h => h) _ _ hq]
    have := strength_mean hs.hI hs.s1 hs.s2 hany hc (fun _ => 1)
    simp only [Rat.cast_one] at this
    rw [this]
    have e2 : ((hfFs w.I J).map (fun F => (2 * F + 1) * (1 : ℚ))).sum = (2 * w.I + 1) * (2 * J + 1) := by
      simp only [mul_one]
      exact sum_degeneracy hs.hI hs.s1
    rw [e2, mul_div_assoc, div_self, mul_one]
    have := hs.s1.nonneg
    intro h; linarith
  have grav : ((allPairs w.I J J').map (fun p => hStrength al w.I J p.1 J' p.2 * ((D p : ℚ) : ℝ))).sum =
      ((sg * ((2 * w.I + 1) * (w.eHz (w.tr t).e2 - w.eHz (w.tr t).e1)) : ℚ) : ℝ) := by
    have e : (fun p : ℚ × ℚ => hStrength al w.I J p.1 J' p.2 * ((D p : ℚ) : ℝ)) = fun p =>
        (sg : ℝ) * (hStrength al w.I J p.1 J' p.2 * ((w.hypE (w.tr t).e2 J' p.2 : ℚ) : ℝ)) +
          (-(sg : ℝ)) * (hStrength al w.I J p.1 J' p.2 * ((w.hypE (w.tr t).e1 J p.1 : ℚ) : ℝ)) := by
      funext p
      simp only [D]
      push_cast
      ring
    rw [e, List.sum_map_add, List.sum_map_mul_left, List.sum_map_mul_left,
      strength_mean' hs.hI hs.s1 hs.s2 hany hc (fun F => w.hypE (w.tr t).e2 J' F),
      strength_mean hs.hI hs.s1 hs.s2 hany hc (fun F => w.hypE (w.tr t).e1 J F), hypE_mean hs.hI hs.s1, hypE_mean hs.hI hs.s2]
    have n1 : (2 * J + 1) ≠ 0 := by have := hs.s1.nonneg; intro h; linarith
    have n2 : (2 * J' + 1) ≠ 0 := by have := hs.s2.nonneg; intro h; linarith
    rw [show (2 * w.I + 1) * (2 * J' + 1) * w.eHz (w.tr t).e2 / (2 * J' + 1) = (2 * w.I + 1) * w.eHz (w.tr t).e2 by field_simp,
      show (2 * w.I + 1) * (2 * J + 1) * w.eHz (w.tr t).e1 / (2 * J + 1) = (2 * w.I + 1) * w.eHz (w.tr t).e1 by field_simp]
    push_cast
    ring
  have hpos : 0 ≤ sg * (w.eHz (w.tr t).e2 - w.eHz (w.tr t).e1) := by
    have h0 : (0 : ℝ) ≤ ((allPairs w.I J J').map (fun p => hStrength al w.I J p.1 J' p.2 * ((D p : ℚ) : ℝ))).sum := by
      refine List.sum_nonneg ?_
      intro y hy
      obtain ⟨p, hp, rfl⟩ := List.mem_map.1 hy
      refine mul_nonneg ?_ (by exact_mod_cast (hD p hp).2)
      obtain ⟨m1, m2⟩ := mem_allPairs.1 hp
      have g1 := (hfFs_spin hs.hI hs.s1 m1).nonneg
      have g2 := (hfFs_spin hs.hI hs.s2 m2).nonneg
      have g3 : (0 : ℝ) ≤ (((2 * p.1 + 1) * (2 * p.2 + 1) : ℚ) : ℝ) := by
        have : (0 : ℚ) ≤ (2 * p.1 + 1) * (2 * p.2 + 1) := by positivity
        exact_mod_cast this
      unfold hStrength
      split
      · exact mul_nonneg g3 (sq_nonneg _)
      · split
        · exact mul_nonneg g3 (sq_nonneg _)
        · exact le_refl _
    rw [grav] at h0
    have h0 : 0 ≤ sg * ((2 * w.I + 1) * (w.eHz (w.tr t).e2 - w.eHz (w.tr t).e1)) := by exact_mod_cast h0
    have hI := hs.hI.nonneg
    by_contra hn
    push Not at hn
    have : (2 * w.I + 1) * (sg * (w.eHz (w.tr t).e2 - w.eHz (w.tr t).e1)) < 0 := mul_neg_of_pos_of_neg (by linarith) hn
    linarith
  have hfreq : sg * (w.eHz (w.tr t).e2 - w.eHz (w.tr t).e1) = w.freqHz t := by
    unfold freqHz
    rcases (by simp only [sg]; split <;> simp : sg = 1 ∨ sg = -1) with h | h
    · rw [h] at hpos ⊢
      rw [abs_sub_comm, abs_of_nonneg (by linarith)]
      ring
    · rw [h] at hpos ⊢
      rw [abs_of_nonneg (by linarith)]
      ring
  let f : HTr → ℚ := fun x => match w'.hFreq x with
    | .ok q => q
    | .error _ => 0
  refine ⟨tot, f, ?_, ?_⟩
  · intro x hx
    obtain ⟨p, hp, rfl⟩ := List.mem_map.1 (h3.mem_iff.1 hx)
    have := hfq p (List.mem_filter.1 hp).1
    simp only [f, this]
  · rw [tot, (h3.map (fun x => x.rel * ((f x : ℚ) : ℝ))).sum_eq, List.map_map]
    have e : ∀ p ∈ (allPairs w.I J J').filter (fun p => decide (Near al p.1 p.2 ∧ Coupled al w.I J p.1 J' p.2)),
        ((fun x : HTr => x.rel * ((f x : ℚ) : ℝ)) ∘ fun p : ℚ × ℚ => w'.mkHTr t (subAt w' (w.tr t).e1 p.1) (subAt w' (w.tr t).e2 p.2) J p.1 J' p.2) p =
        hStrength al w.I J p.1 J' p.2 * ((D p : ℚ) : ℝ) := by
      intro p hp
      have := hfq p (List.mem_filter.1 hp).1
      simp only [Function.comp, f, this, hrel p]
    rw [List.map_congr_left e, sum_lines hs.hI hs.s1 hs.s2 _ (fun _ h => h) _ _ hq, grav, ← hfreq]
    push_cast
    ring

/-- The D2-like line of `dAtom` has a rate, two separated manifolds and hyperfine constants that are not zero. -/
example : Reachable dAtom ∧ SubReady dAtom 0 (1/2) (3/2) ∧ Separated dAtom 0 (1/2) (3/2) ∧ (dAtom.tr 0).A = some 1 ∧
    Types.any (dAtom.tr 0).allowed = true ∧ Couples (1/2) (3/2) ((leading (dAtom.tr 0).allowed : ℕ) : ℚ) ∧ (dAtom.lv 0).hfA ≠ 0 :=
  ⟨dAtom_reachable, dAtom_ready, dAtom_separated, by decide +kernel, by decide +kernel, couples_comm dAtom_tri, by decide +kernel⟩

/-- Nuclear spin 1/2, a line between two levels with J = 1/2 of different parity, without a rate, and one inside the lower level, with
a rate. -/
def gravOps : List Op :=
  [.newLevel (demoTerm 'g') 0 2 4 0 0 none, .newLevel ⟨['e'], "2P*".toList, some (1/2), none, none, 100, { l := some 1, s := some (1/2) }⟩ 500 2 0 0 0 none,
   .addLevel 0 true none, .addLevel 1 false none, .newTrans 0 1 none .none none, .newTrans 0 0 none (.hz 1) none]

/-- The atom after these calls. -/
def gravAtom : World := runAll gravOps (emptyAtom (1/2) 0)

theorem gravAtom_reachable : Reachable gravAtom := (Reachable.empty (1/2) 0).runAll (by decide +kernel)

theorem gravAtom_ready : SubReady gravAtom 0 (1/2) (1/2) :=
  ⟨⟨1, by decide +kernel⟩, by decide +kernel, by decide +kernel, by decide +kernel, by decide +kernel, ⟨1, by norm_num⟩, ⟨1, by norm_num⟩,
    by decide +kernel, by decide +kernel⟩

theorem gravAtom_inside : SubReady gravAtom 1 (1/2) (1/2) :=
  ⟨⟨1, by decide +kernel⟩, by decide +kernel, by decide +kernel, by decide +kernel, by decide +kernel, ⟨1, by norm_num⟩, ⟨1, by norm_num⟩,
    by decide +kernel, by decide +kernel⟩

theorem gravAtom_types : (gravAtom.tr 0).allowed = (true, false, false) := by decide +kernel

theorem gravAtom_types1 : (gravAtom.tr 1).allowed = (false, true, false) := by decide +kernel

theorem half_couples : Couples (1/2) (1/2) 1 := ⟨by norm_num, by norm_num, 0, by norm_num⟩

/-- The 6j symbol of the lines of `gravAtom`. -/
theorem half_six (F F' : ℕ) : six (1/2) (1/2) 1 (F' : ℚ) (F : ℚ) (1/2) = w6 1 1 2 (2 * F' : ℕ) (2 * F : ℕ) 1 := by
  have := six_half 1 1 2 ((2 * F' : ℕ) : ℤ) ((2 * F : ℕ) : ℤ) 1
  rw [← this]
  congr 1 <;> unfold half <;> push_cast <;> ring

theorem half_six_00 : six (1/2) (1/2) 1 0 0 (1/2) = 0 := by
  have := half_six 0 0
  rw [Nat.cast_zero] at this
  rw [this]
  exact w6_zero (fun h => by unfold Tri at h; simp at h)

theorem half_six_01 : six (1/2) (1/2) 1 1 0 (1/2) ≠ 0 := by
  have := half_six 0 1
  rw [Nat.cast_zero, Nat.cast_one] at this
  rw [this]
  exact w6_ne (by decide) (by decide +kernel)

theorem half_six_10 : six (1/2) (1/2) 1 0 1 (1/2) ≠ 0 := by
  have := half_six 1 0
  rw [Nat.cast_zero, Nat.cast_one] at this
  rw [this]
  exact w6_ne (by decide) (by decide +kernel)

theorem half_six_11 : six (1/2) (1/2) 1 1 1 (1/2) ≠ 0 := by
  have := half_six 1 1
  rw [Nat.cast_one] at this
  rw [this]
  exact w6_ne (by decide) (by decide +kernel)

open Classical in
/-- C125 fails: the lines of a transition without a rate all have the strength 1, and the mean of their frequencies, here 500.33…
Hz, is not the frequency of the transition. -/
theorem C125_fails : ¬C125_full := by
  intro h
  obtain ⟨w', d, h1, f, hf, hs⟩ := h exactWig gravAtom 0 (1/2) (1/2) exactWig_good gravAtom_reachable gravAtom_ready (by decide +kernel)
    (by rw [gravAtom_types]; exact half_couples)
  obtain ⟨w2, d2, g1, g2, s1, s2, g3⟩ := lines_perm exactWig_good gravAtom_reachable gravAtom_ready (.inl (by decide +kernel))
  rw [h1] at g1
  simp only [Prod.mk.injEq, Except.ok.injEq] at g1
  obtain ⟨rfl, rfl⟩ := g1
  have hI : gravAtom.I = 1/2 := by decide +kernel
  have hall : allPairs gravAtom.I (1/2) (1/2) = [(0, 0), (0, 1), (1, 0), (1, 1)] := by decide +kernel
  have near : ∀ p ∈ [((0 : ℚ), (0 : ℚ)), (0, 1), (1, 0), (1, 1)], Near (gravAtom.tr 0).allowed p.1 p.2 := by
    intro p hp _
    rw [gravAtom_types]
    revert p
    decide +kernel
  have cp : ∀ F F' : ℚ, Coupled (gravAtom.tr 0).allowed gravAtom.I (1/2) F (1/2) F' ↔ six (1/2) (1/2) 1 F' F (1/2) ≠ 0 := by
    intro F F'
    rw [gravAtom_types, hI]
    simp [Coupled]
  have hfl : (allPairs gravAtom.I (1/2) (1/2)).filter (fun p => Near (gravAtom.tr 0).allowed p.1 p.2 ∧
      Coupled (gravAtom.tr 0).allowed gravAtom.I (1/2) p.1 (1/2) p.2) = [(0, 1), (1, 0), (1, 1)] := by
    rw [hall]
    simp only [cp]
    rw [List.filter_cons_of_neg (by rw [decide_eq_true_eq]; exact fun h => h.2 half_six_00),
      List.filter_cons_of_pos (by rw [decide_eq_true_eq]; exact ⟨near (0, 1) (by simp), half_six_01⟩),
      List.filter_cons_of_pos (by rw [decide_eq_true_eq]; exact ⟨near (1, 0) (by simp), half_six_10⟩),
      List.filter_cons_of_pos (by rw [decide_eq_true_eq]; exact ⟨near (1, 1) (by simp), half_six_11⟩), List.filter_nil]
  rw [hfl] at g3
  have val : ∀ F ∈ hfFs gravAtom.I (1/2), ∀ F' ∈ hfFs gravAtom.I (1/2),
      w'.hFreq (w'.mkHTr 0 (subAt w' (gravAtom.tr 0).e1 F) (subAt w' (gravAtom.tr 0).e2 F') (1/2) F (1/2) F') =
        .ok |gravAtom.hypE (gravAtom.tr 0).e1 (1/2) F - gravAtom.hypE (gravAtom.tr 0).e2 (1/2) F'| := by
    intro F hF F' hF'
    unfold hFreq mkHTr
    simp only
    rw [(s1 F hF).energy, (s2 F' hF').energy, g2.hypE, g2.hypE]
    rfl
  have rel : ∀ x ∈ d.vals, x.rel = 1 := by
    intro x hx
    obtain ⟨p, -, rfl⟩ := List.mem_map.1 (g3.mem_iff.1 hx)
    unfold mkHTr
    simp only
    rw [g2.tr, show (gravAtom.tr 0).A = none by decide +kernel]
  have e1 : d.vals.map (fun x => x.rel * ((f x : ℚ) : ℝ)) = d.vals.map (fun x => ((f x : ℚ) : ℝ)) :=
    List.map_congr_left (fun x hx => by rw [rel x hx, one_mul])
  have e2 : d.vals.map (fun x => x.rel) = d.vals.map (fun _ => (1 : ℝ)) := List.map_congr_left rel
  rw [e1, e2, (g3.map (fun x => ((f x : ℚ) : ℝ))).sum_eq, (g3.map (fun _ => (1 : ℝ))).sum_eq] at hs
  have fv : ∀ p ∈ [((0 : ℚ), (1 : ℚ)), (1, 0), (1, 1)],
      f (w'.mkHTr 0 (subAt w' (gravAtom.tr 0).e1 p.1) (subAt w' (gravAtom.tr 0).e2 p.2) (1/2) p.1 (1/2) p.2) =
        |gravAtom.hypE (gravAtom.tr 0).e1 (1/2) p.1 - gravAtom.hypE (gravAtom.tr 0).e2 (1/2) p.2| := by
    intro p hp
    have a := hf _ (g3.mem_iff.2 (List.mem_map.2 ⟨p, hp, rfl⟩))
    have m : p.1 ∈ hfFs gravAtom.I (1/2) ∧ p.2 ∈ hfFs gravAtom.I (1/2) := by
      clear a
      revert p
      decide +kernel
    rw [val _ m.1 _ m.2] at a
    exact (Except.ok.inj a).symm
  have q1 : |gravAtom.hypE (gravAtom.tr 0).e1 (1/2) 0 - gravAtom.hypE (gravAtom.tr 0).e2 (1/2) 1| = 503 := by decide +kernel
  have q2 : |gravAtom.hypE (gravAtom.tr 0).e1 (1/2) 1 - gravAtom.hypE (gravAtom.tr 0).e2 (1/2) 0| = 499 := by decide +kernel
  have q3 : |gravAtom.hypE (gravAtom.tr 0).e1 (1/2) 1 - gravAtom.hypE (gravAtom.tr 0).e2 (1/2) 1| = 499 := by decide +kernel
  have q4 : gravAtom.freqHz 0 = 500 := by decide +kernel
  have v1 := fv (0, 1) (by simp)
  have v2 := fv (1, 0) (by simp)
  have v3 := fv (1, 1) (by simp)
  simp only [q1, q2, q3] at v1 v2 v3
  simp only [List.map_cons, List.map_nil, List.sum_cons, List.sum_nil, v1, v2, v3, q4] at hs
  norm_num at hs

/-- With a rate the claim fails as well when the manifolds overlap: the transition inside a level has the frequency 0, its lines have
not. -/
theorem C125_inside_fails : ¬∀ (W : Wig) (w : World) (t : Nat) (J J' : ℚ), W.Good → Reachable w → SubReady w t J J' →
    Types.any (w.tr t).allowed = true → Couples J J' (leading (w.tr t).allowed) → (w.tr t).A ≠ none →
    ∃ w' d, hSubs W t [] w = (w', .ok d) ∧ Gravity w w' t d.vals := by
  intro h
  obtain ⟨w', d, h1, f, hf, hs⟩ := h exactWig gravAtom 1 (1/2) (1/2) exactWig_good gravAtom_reachable gravAtom_inside (by decide +kernel)
    (by rw [gravAtom_types1]; exact half_couples) (by decide +kernel)
  obtain ⟨w2, d2, g1, g2, g3, g4, g5, g6, g7, g8, g9⟩ := hSubs_spec exactWig_good gravAtom_reachable.subInv gravAtom_inside
  rw [h1] at g1
  simp only [Prod.mk.injEq, Except.ok.injEq] at g1
  obtain ⟨rfl, rfl⟩ := g1
  have hI : gravAtom.I = 1/2 := by decide +kernel
  have q4 : gravAtom.freqHz 1 = 0 := by decide +kernel
  have hA : (gravAtom.tr 1).A = some 1 := by decide +kernel
  rw [q4, Rat.cast_zero, mul_zero] at hs
  have form : ∀ x ∈ d.vals, ∃ k a b F F', d.get? k = some x ∧ IsHyp w' (w'.tr 1).e1 (1/2) a F ∧ IsHyp w' (w'.tr 1).e2 (1/2) b F' ∧
      Coupled (gravAtom.tr 1).allowed gravAtom.I (1/2) F (1/2) F' ∧ x = w'.mkHTr 1 a b (1/2) F (1/2) F' ∧ w'.hKey x = k ∧
      x.rel = hStrength (gravAtom.tr 1).allowed gravAtom.I (1/2) F (1/2) F' ∧
      f x = |gravAtom.hypE (gravAtom.tr 1).e1 (1/2) F - gravAtom.hypE (gravAtom.tr 1).e2 (1/2) F'| := by
    intro x hx
    obtain ⟨k, hk⟩ := (Dict.mem_vals g5 x).1 hx
    obtain ⟨a, b, F, F', i1, i2, i3, i4, i5, i6⟩ := g8 k x hk
    refine ⟨k, a, b, F, F', hk, i1, i2, ?_, i4, i6, ?_, ?_⟩
    · rw [i4] at i5
      have := (coupled_iff _ _ _ _ _ _).1 i5
      rwa [g2.tr, g2.I] at this
    · rw [i4]
      unfold mkHTr
      simp only
      rw [g2.tr, hA, g2.I]
    · have a1 := hf x hx
      have x1 : x.e1 = a := by rw [i4]; rfl
      have x2 : x.e2 = b := by rw [i4]; rfl
      unfold hFreq at a1
      rw [x1, x2, i1.energy, i2.energy, g2.hypE, g2.hypE, g2.tr] at a1
      exact (Except.ok.inj a1).symm
  have nn : ∀ y ∈ d.vals.map (fun x => x.rel * ((f x : ℚ) : ℝ)), 0 ≤ y := by
    intro y hy
    obtain ⟨x, hx, rfl⟩ := List.mem_map.1 hy
    obtain ⟨k, a, b, F, F', -, i1, i2, -, -, -, r, v⟩ := form x hx
    rw [r, v]
    refine mul_nonneg ?_ (by exact_mod_cast abs_nonneg _)
    have m1 := (hfFs_spin g4.hI g4.s1 i1.mem).nonneg
    have m2 := (hfFs_spin g4.hI g4.s2 i2.mem).nonneg
    have g3 : (0 : ℝ) ≤ (((2 * F + 1) * (2 * F' + 1) : ℚ) : ℝ) := by
      have : (0 : ℚ) ≤ (2 * F + 1) * (2 * F' + 1) := by positivity
      exact_mod_cast this
    rw [gravAtom_types1]
    unfold hStrength
    rw [if_pos (by rfl)]
    exact mul_nonneg g3 (sq_nonneg _)
  obtain ⟨a, ha⟩ := hyp_all g3 g4.hJ1 g4.hI g4.s1 g4.F1 g6 (F := 0) (by rw [g2.I, hI]; decide +kernel)
  obtain ⟨b, hb⟩ := hyp_all g3 g4.hJ2 g4.hI g4.s2 g4.F2 g7 (F := 1) (by rw [g2.I, hI]; decide +kernel)
  have cpl : Coupled (gravAtom.tr 1).allowed gravAtom.I (1/2) 0 (1/2) 1 := by
    rw [gravAtom_types1, hI]
    exact .inl ⟨.inr rfl, half_six_01⟩
  obtain ⟨⟨x, hx⟩, -⟩ := g9 a b 0 1 ha hb (by rw [g2.tr, gravAtom_types1]; decide +kernel)
    ((coupled_iff _ _ _ _ _ _).2 (by rw [g2.tr, g2.I]; exact cpl))
  have hxm : x ∈ d.vals := (Dict.mem_vals g5 x).2 ⟨_, hx⟩
  have := List.all_zero_of_le_zero_le_of_sum_eq_zero nn hs (List.mem_map.2 ⟨x, hxm, rfl⟩)
  obtain ⟨k, a', b', F, F', hk, i1, i2, c, e, ek, r, v⟩ := form x hxm
  obtain ⟨a2, b2, G, G', j1, j2, -, j4, -, j6⟩ := g8 _ x hx
  have hne : F ≠ F' := by
    rintro rfl
    rw [e, hKey_of i1 i2, hKey_of ha hb] at j6
    have : (fKey F = fKey 0 ∧ fKey F = fKey 1) ∨ (fKey F = fKey 1 ∧ fKey F = fKey 0) := by
      split at j6 <;> split at j6 <;> simp only [Prod.mk.injEq] at j6 <;> tauto
    have : fKey 0 = fKey 1 := by
      rcases this with ⟨x, y⟩ | ⟨x, y⟩
      · exact x.symm.trans y
      · exact y.symm.trans x
    exact absurd this (by decide +kernel)
  have hmem : ∀ F ∈ hfFs gravAtom.I (1/2), ∀ F' ∈ hfFs gravAtom.I (1/2), F ≠ F' →
      |gravAtom.hypE (gravAtom.tr 1).e1 (1/2) F - gravAtom.hypE (gravAtom.tr 1).e2 (1/2) F'| = 4 := by decide +kernel
  have m1 := i1.mem
  have m2 := i2.mem
  rw [g2.I] at m1 m2
  rw [v, hmem F m1 F' m2 hne, r, gravAtom_types1] at this
  rcases c with ⟨-, h6⟩ | ⟨h6, -⟩
  · unfold hStrength at this
    rw [if_pos (by rfl)] at this
    have p1 := (hfFs_spin gravAtom_inside.hI gravAtom_inside.s1 m1).nonneg
    have p2 := (hfFs_spin gravAtom_inside.hI gravAtom_inside.s2 m2).nonneg
    have p3 : ((2 * F + 1) * (2 * F' + 1) : ℚ) ≠ 0 := by positivity
    have p4 : ((((2 * F + 1) * (2 * F' + 1) : ℚ)) : ℝ) ≠ 0 := by exact_mod_cast p3
    exact absurd this (mul_ne_zero (mul_ne_zero p4 (pow_ne_zero 2 h6)) (by norm_num))
  · rw [gravAtom_types1] at h6
    exact absurd h6 (by simp)

end AtomTk
