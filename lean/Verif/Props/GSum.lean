import Verif.Props.Whole
import Verif.Props.Constants

/-!
# C167: the Zeeman effect of a whole multiplet

The magnetic moment of a level belongs to the electrons.  However the nuclear spin divides it between the hyperfine levels, the first moment of the shifts
is that of the electrons alone, and no Zeeman level is moved further than the stretched one.
-/

namespace AtomTk
open Util World

theorem hfFs_bounds {I J F : ℚ} (hI : IsSpin I) (hJ : IsSpin J) (h : F ∈ hfFs I J) : |J - I| ≤ F ∧ F ≤ J + I := by
  have := ((C13_multiplet I J hI hJ).1 F).1 h
  exact ⟨this.1, this.2.1⟩

/-- The numerator of the factor of a hyperfine level, twice J·F. -/
theorem jDotF_bound {I J F : ℚ} (hI : 0 ≤ I) (hJ : 0 ≤ J) (hF : 0 ≤ F) (h1 : |J - I| ≤ F) (h2 : F ≤ J + I) :
    |F * (F + 1) + J * (J + 1) - I * (I + 1)| ≤ 2 * J * (F + 1) := by
  obtain ⟨h3, h4⟩ := abs_le.1 h1
  rw [abs_le]
  constructor
  · nlinarith [mul_nonneg hJ hF, mul_nonneg hI hJ, mul_nonneg (show 0 ≤ J + F - I by linarith) (show 0 ≤ J + F + I + 1 by linarith)]
  · rcases le_total J F with h | h
    · nlinarith [mul_nonneg (show 0 ≤ I - (F - J) by linarith) (show 0 ≤ I + (F - J) + 1 by linarith)]
    · nlinarith [mul_nonneg (show 0 ≤ I - (J - F) by linarith) (show 0 ≤ I + (J - F) + 1 by linarith)]

/-- C167: no factor g_F exceeds g_J J / F. -/
theorem C167_factor {gJ I J F g : ℚ} (hI : IsSpin I) (hJ : IsSpin J) (hF : F ∈ hfFs I J) (h : compGF gJ I J F = .ok g) : |g| * F ≤ |gJ| * J := by
  have hs := hfFs_spin hI hJ hF
  obtain ⟨h1, h2⟩ := hfFs_bounds hI hJ hF
  rw [C22_gF gJ I J F hs] at h
  cases h
  split
  · simp only [abs_zero, zero_mul]
    exact mul_nonneg (abs_nonneg _) hJ.nonneg
  · rename_i h0
    have hp : 0 < F := lt_of_le_of_ne hs.nonneg (Ne.symm h0)
    have hb := jDotF_bound hI.nonneg hJ.nonneg hs.nonneg h1 h2
    rw [abs_div, abs_mul, abs_of_pos (show 0 < 2 * F * (F + 1) by positivity), div_mul_eq_mul_div, div_le_iff₀ (by positivity)]
    calc |gJ| * |F * (F + 1) + J * (J + 1) - I * (I + 1)| * F ≤ |gJ| * (2 * J * (F + 1)) * F :=
          mul_le_mul_of_nonneg_right (mul_le_mul_of_nonneg_left hb (abs_nonneg _)) hp.le
      _ = _ := by ring

theorem sum_msq {F : ℚ} (hF : IsSpin F) : ((zMs F).map (fun m => m * m)).sum = F * (F + 1) * (2 * F + 1) / 3 := by
  obtain ⟨n, hn, hn2⟩ := spin_count_m hF
  rw [zMs, arange_nat _ _ n hn, sum_telescope (fun m => m * m) (fun x => x * (x + 1) * (2 * x + 1) / 6) (by intro x; ring)]
  have : -F + (n : ℚ) - 1 = F := by linarith
  rw [this]; ring

/-- C167: the factors of a multiplet, weighted by the degeneracies and by F(F+1), add up to g_J times the same for the electrons, times the number of
nuclear states. -/
theorem C167_factors (gJ I J : ℚ) (hI : IsSpin I) (hJ : IsSpin J) (g : ℚ → ℚ) (hg : ∀ F ∈ hfFs I J, compGF gJ I J F = .ok (g F)) :
    ((hfFs I J).map (fun F => g F * (F * (F + 1) * (2 * F + 1)))).sum = (2 * I + 1) * (gJ * (J * (J + 1) * (2 * J + 1))) := by
  have e : (hfFs I J).map (fun F => g F * (F * (F + 1) * (2 * F + 1))) =
      (hfFs I J).map (fun F => gJ / 2 * ((2 * F + 1) * (F * (F + 1) + (J * (J + 1) - I * (I + 1)))) + 0) := by
    refine List.map_congr_left (fun F hF => ?_)
    have hs := hfFs_spin hI hJ hF
    have h := hg F hF
    rw [C22_gF gJ I J F hs] at h
    rw [← Except.ok.inj h]
    split
    · rename_i h0
      obtain ⟨h1, -⟩ := hfFs_bounds hI hJ hF
      rw [h0] at h1
      have : J = I := by
        have := abs_nonpos_iff.1 h1
        linarith
      rw [h0, this]; ring
    · rename_i h0
      have hp : 0 < F := lt_of_le_of_ne hs.nonneg (Ne.symm h0)
      field_simp
      ring
  rw [e, sum_map_lin, sum_hfFs_sq (fun F => (2 * F + 1) * (F * (F + 1) + (J * (J + 1) - I * (I + 1))))
    (fun u => u ^ 2 / 2 + (J * (J + 1) - I * (I + 1) - 1 / 2) * u) (by intro x; ring) hI hJ]
  simp only [List.map_const', List.sum_replicate, smul_zero, add_zero]
  ring

/-- What the field does to the Zeeman level z, apart from the quadratic shift: m, and the distance from the hyperfine level. -/
def IsLinShift (w : World) (z : Nat) (p : ℚ × ℚ) : Prop :=
  (w.zl z).term.mF = some p.1 ∧ ∃ a b, w.zHz z = .ok a ∧ w.hHz (w.zl z).parent = .ok b ∧ p.2 = a - b - (w.zl z).quad * w.B ^ 2

theorem manifold_shifts {w : World} {j : Nat} {e g : ℚ} {zs : List Nat} {ms : List ℚ} (he : w.hHz j = .ok e)
    (h : List.Forall₂ (fun z m => z < w.nzl ∧ (w.zl z).term.mF = some m ∧ (w.zl z).parent = j ∧ (w.zl z).gF = g) zs ms) :
    List.Forall₂ (IsLinShift w) zs (ms.map (fun m => (m, g * m * muB * w.B))) := by
  induction h with
  | nil => exact .nil
  | @cons z m zs ms h1 _ ih =>
    obtain ⟨-, h2, h3, h4⟩ := h1
    refine .cons ⟨h2, e + zShift g m (w.zl z).quad w.B, e, ?_, by rw [h3, he], ?_⟩ ih
    · unfold zHz zShiftHz
      rw [h3, he, h2, h4]
      rfl
    · simp only [zShift]; ring

theorem ms_ne {F : ℚ} (hF : IsSpin F) : zMs F ≠ [] := by
  intro h
  have := (C14_manifold F hF).2.2.1
  rw [h] at this
  have h0 := hF.nonneg
  simp at this
  linarith

theorem Manifolds.shifts {w : World} {i : Nat} {J : ℚ} {js : List Nat} {Fs : List ℚ} {zs : List Nat} (h : Manifolds w js Fs zs) (hm : MadeInv w)
    (hG : GInv w) (hI : IsSpin w.I) (hJ : IsSpin J) (hj : List.Forall₂ (fun j F => IsHyp w i J j F) js Fs) (hF : ∀ F ∈ Fs, F ∈ hfFs w.I J) :
    ∃ (g : ℚ → ℚ) (ps : List (ℚ × ℚ)), (∀ F ∈ hfFs w.I J, compGF (w.lv i).lande w.I J F = .ok (g F)) ∧ List.Forall₂ (IsLinShift w) zs ps ∧
      (∀ p ∈ ps, ∃ F ∈ Fs, p.1 ∈ zMs F ∧ p.2 = g F * p.1 * muB * w.B) ∧
      (ps.map (fun p => p.1 * p.2)).sum = muB * w.B / 3 * (Fs.map (fun F => g F * (F * (F + 1) * (2 * F + 1)))).sum := by
  refine ⟨fun F => gFactor (w.lv i).lande w.I J F, ?_⟩
  have hg : ∀ F ∈ hfFs w.I J, compGF (w.lv i).lande w.I J F = .ok (gFactor (w.lv i).lande w.I J F) :=
    fun F hF => C22_gF _ _ _ _ (hfFs_spin hI hJ hF)
  suffices hh : ∃ ps, List.Forall₂ (IsLinShift w) zs ps ∧ (∀ p ∈ ps, ∃ F ∈ Fs, p.1 ∈ zMs F ∧ p.2 = gFactor (w.lv i).lande w.I J F * p.1 * muB * w.B) ∧
      (ps.map (fun p => p.1 * p.2)).sum = muB * w.B / 3 * (Fs.map (fun F => gFactor (w.lv i).lande w.I J F * (F * (F + 1) * (2 * F + 1)))).sum by
    obtain ⟨ps, a, b, c⟩ := hh
    exact ⟨ps, hg, a, b, c⟩
  induction h with
  | nil => exact ⟨[], .nil, by simp, by simp⟩
  | @cons j F js Fs a b h1 h2 ih =>
    cases hj with
    | cons hj1 hj2 =>
      obtain ⟨ps, p1, p2, p3⟩ := ih hj2 (fun F hF' => hF F (List.mem_cons_of_mem _ hF'))
      have hFm := hF F List.mem_cons_self
      have hs := hfFs_spin hI hJ hFm
      obtain ⟨g, h1'⟩ := h1
      have hgF : g = gFactor (w.lv i).lande w.I J F := by
        have hne := ms_ne hs
        generalize hM : zMs F = M at h1' hne
        cases h1' with
        | nil => exact absurd rfl hne
        | @cons z m _ _ hz _ =>
          obtain ⟨z1, z2, z3, z4⟩ := hz
          obtain ⟨J', F', q1, q2, q3⟩ := hG z z1
          obtain ⟨_, m', htz⟩ := hm.zlMade z z1
          have e1 : (w.zl z).term.J = some J := by rw [htz, z3]; exact hj1.J
          have e2 : (w.zl z).term.F = some F := by rw [htz, z3]; exact hj1.F
          rw [e1] at q1; rw [e2] at q2
          cases q1; cases q2
          rw [z3, hj1.par, hg F hFm, z4] at q3
          exact (Except.ok.inj q3).symm
      subst hgF
      refine ⟨(zMs F).map (fun m => (m, gFactor (w.lv i).lande w.I J F * m * muB * w.B)) ++ ps, List.rel_append (manifold_shifts hj1.energy h1') p1, ?_, ?_⟩
      · intro p hp
        rcases List.mem_append.1 hp with hp | hp
        · obtain ⟨m, hm', rfl⟩ := List.mem_map.1 hp
          exact ⟨F, List.mem_cons_self, hm', rfl⟩
        · obtain ⟨F', q1, q2⟩ := p2 p hp
          exact ⟨F', List.mem_cons_of_mem _ q1, q2⟩
      · rw [List.map_append, List.sum_append, p3, List.map_cons, List.sum_cons, List.map_map]
        have : (zMs F).map ((fun p : ℚ × ℚ => p.1 * p.2) ∘ fun m => (m, gFactor (w.lv i).lande w.I J F * m * muB * w.B)) =
            (zMs F).map (fun m => gFactor (w.lv i).lande w.I J F * muB * w.B * (m * m) + 0) :=
          List.map_congr_left (fun m _ => by simp only [Function.comp]; ring)
        rw [this, sum_map_lin, sum_msq hs]
        simp only [List.map_const', List.sum_replicate, smul_zero]
        ring

theorem zeemanOf_steps {C : World → Nat → ℚ → Prop} (js : List Nat) (w : World) : SSteps C w (zeemanOf js w).1 := by
  induction js generalizing w with
  | nil => exact .refl
  | cons j js ih =>
    have h1 : SSteps C w (hfSubs j w).1 := by
      have h := lazyZ_steps (C := C) j w
      unfold hfSubs
      rcases hl : lazyZ j w with ⟨w1, r⟩
      rw [hl] at h
      cases r with
      | ok u => rw [PyM.bind_ok hl]; exact h
      | error e => rw [PyM.bind_err hl]; exact h
    show SSteps C w ((hfSubs j >>= fun a => zeemanOf js >>= fun b => pure (a ++ b)) w).1
    rcases hh : hfSubs j w with ⟨w1, r⟩
    rw [hh] at h1
    cases r with
    | error e => rw [PyM.bind_err hh]; exact h1
    | ok a =>
      rw [PyM.bind_ok hh]
      refine h1.trans ?_
      rcases h2 : zeemanOf js w1 with ⟨w2, r2⟩
      have h3 := ih w1
      rw [h2] at h3
      cases r2 with
      | error e => rw [PyM.bind_err h2]; exact h3
      | ok b => rw [PyM.bind_ok h2]; exact h3

theorem allZeeman_steps {C : World → Nat → ℚ → Prop} (i : Nat) (w : World) : SSteps C w (allZeeman i w).1 := by
  have h1 : SSteps C w (lvSubs i w).1 := by
    have h := lazyHF_steps (C := C) i w
    unfold lvSubs
    rcases hl : lazyHF i w with ⟨w1, r⟩
    rw [hl] at h
    cases r with
    | ok u => rw [PyM.bind_ok hl]; exact h
    | error e => rw [PyM.bind_err hl]; exact h
  unfold allZeeman
  rcases hh : lvSubs i w with ⟨w1, r⟩
  rw [hh] at h1
  cases r with
  | error e => rw [PyM.bind_err hh]; exact h1
  | ok a => rw [PyM.bind_ok hh]; exact h1.trans (zeemanOf_steps a w1)

/-- C167 in full: in every atom the first moment of the linear Zeeman shifts of a level, over all its Zeeman levels, is the one of the electrons times the
number of nuclear states, and no shift exceeds that of the stretched level. -/
def C167_full : Prop := ∀ w, Reachable w → IsSpin w.I → ∀ i J, Findable w i J → ∃ w' zs ps, allZeeman i w = (w', .ok zs) ∧
  List.Forall₂ (IsLinShift w') zs ps ∧
  (ps.map (fun p => p.1 * p.2)).sum = (2 * w.I + 1) * ((w.lv i).lande * muB * w.B * (J * (J + 1) * (2 * J + 1) / 3)) ∧
  ∀ p ∈ ps, |p.2| ≤ |(w.lv i).lande| * J * muB * |w.B|

/-- C167, part that holds: in histories that assign no Landé factor after the Zeeman levels have been accessed (C25). -/
theorem C167_moment_partial (I B : ℚ) (ops : List Op) (h : TimelyAll ops (emptyAtom I B)) (hI : IsSpin I) (i : Nat) (J : ℚ) :
    let w := runAll ops (emptyAtom I B)
    Reachable w → Findable w i J → ∃ w' zs ps, allZeeman i w = (w', .ok zs) ∧
      List.Forall₂ (IsLinShift w') zs ps ∧
      (ps.map (fun p => p.1 * p.2)).sum = (2 * w.I + 1) * ((w.lv i).lande * muB * w.B * (J * (J + 1) * (2 * J + 1) / 3)) ∧
      ∀ p ∈ ps, |p.2| ≤ |(w.lv i).lande| * J * muB * |w.B| := by
  intro w hr hf
  have hst := h.steps
  have hs0 : SubsInv (emptyAtom I B) := emptyAtom_subsInv I B
  have hm0 : MadeInv (emptyAtom I B) := emptyAtom_madeInv I B
  have hwI : w.I = I := (run_keep _ _).I
  have hI : IsSpin w.I := by rw [hwI]; exact hI
  have hv := hr.subInv
  obtain ⟨w1, e1, ek, -⟩ := lazyHF_ok hv.keys hI (hr.wf.node _ _ hf.reg).2.1 hf.hJ hf.spin hf.hF
  have hfr : LFrame w w1 := by
    have := lazyHF_frame i w
    rwa [e1] at this
  have hin1 : SubInv w1 := by
    have := hv.steps (lazyHF_steps (C := fun _ _ _ => True) i w)
    rwa [e1] at this
  have hg1 : SameG w1 := by
    have := hr.sameG.steps (lazyHF_steps (C := fun _ _ _ => True) i w)
    rwa [e1] at this
  have hD : Draw w1 i J := ⟨hin1, by rw [hfr.I]; exact hI, by rw [hfr.inAtom]; exact (hr.wf.node _ _ hf.reg).2.1, by rw [hfr.term]; exact hf.hJ, hf.spin,
    by rw [hfr.term]; exact hf.hF, by rw [hfr.I]; exact ek⟩
  have hz := hyp_zip hD
  rw [hfr.I] at hz
  obtain ⟨w2, zs, g1, g2, g3, g4, g5⟩ := zeemanOf_ok hz hD hg1 (LFrame.refl w1) rfl
  have hz2 : List.Forall₂ (fun j F => IsHyp w2 i J j F) (w1.lv i).subs.vals (hfFs w.I J) := hz.imp (fun j F h => h.frame g3 g4)
  have hall : allZeeman i w = (w2, .ok zs) := by
    unfold allZeeman
    have : lvSubs i w = (w1, .ok (w1.lv i).subs.vals) := by unfold lvSubs; rw [PyM.bind_ok e1]; rfl
    rw [PyM.bind_ok this]
    exact g1
  have hst2 : SSteps Timely (emptyAtom I B) w2 := by
    have := allZeeman_steps (C := Timely) i w
    rw [hall] at this
    exact hst.trans this
  have hG : GInv w2 := GInv.steps (by intro _ h; cases h) hm0 hs0 hst2
  have hM := hm0.steps hs0 hst2
  have hI2 : w2.I = w.I := g3.I.trans hfr.I
  have hB2 : w2.B = w.B := g3.B.trans hfr.B
  have hL : (w2.lv i).lande = (w.lv i).lande := by
    rw [g4]
    obtain ⟨s, hs⟩ := hfr.lv i
    rw [hs]
  obtain ⟨g, ps, k1, k2, k3, k4⟩ := g5.shifts hM hG (by rw [hI2]; exact hI) hf.spin hz2 (by rw [hI2]; exact fun F hF => hF)
  rw [hI2, hL] at k1
  have hsum := C167_factors (w.lv i).lande w.I J hI hf.spin g k1
  refine ⟨w2, zs, ps, hall, k2, ?_, ?_⟩
  · rw [k4, hsum, hB2]; ring
  · intro p hp
    obtain ⟨F, q1, q2, q3⟩ := k3 p hp
    have hs := hfFs_spin hI hf.spin q1
    have hb := C167_factor hI hf.spin q1 (k1 F q1)
    have hm : |p.1| ≤ F := by
      have := ((C14_manifold F hs).1 p.1).1 q2
      rw [abs_le]
      exact ⟨by linarith [this.1], by linarith [this.2.1]⟩
    have hmu : (0 : ℚ) ≤ muB := by norm_num [muB]
    rw [q3, hB2, abs_mul, abs_mul, abs_mul, abs_of_nonneg hmu]
    refine mul_le_mul_of_nonneg_right (mul_le_mul_of_nonneg_right ?_ hmu) (abs_nonneg _)
    exact (mul_le_mul_of_nonneg_left hm (abs_nonneg _)).trans hb

/-- C167: the bound is met by the stretched level. -/
theorem C167_stretched (gJ I J B : ℚ) (hI : IsSpin I) (hJ : IsSpin J) (h0 : 0 < I + J) :
    ∃ g, compGF gJ I J (I + J) = .ok g ∧ zShift g (I + J) 0 B = gJ * J * muB * B := by
  refine ⟨_, C22_stretched gJ I J hI hJ h0, ?_⟩
  have : I + J ≠ 0 := h0.ne'
  simp only [zShift]
  field_simp
  ring

theorem forall2_left {α β : Type} {P : α → β → Prop} {l : List α} {m : List β} (h : List.Forall₂ P l m) {a : α} (ha : a ∈ l) : ∃ b ∈ m, P a b := by
  induction h with
  | nil => cases ha
  | cons h1 _ ih =>
    rcases List.mem_cons.1 ha with rfl | ha
    · exact ⟨_, List.mem_cons_self, h1⟩
    · obtain ⟨b, hb, hp⟩ := ih ha
      exact ⟨b, List.mem_cons_of_mem _ hb, hp⟩

/-- C167 fails: the Landé factor halved after the Zeeman levels were accessed. -/
theorem C167_fails : ¬C167_full := by
  intro h
  obtain ⟨w', zs, ps, h1, h2, -, h3⟩ := h (runAll staleOps (emptyAtom (1/2) 0)) ((Reachable.empty _ _).runAll (by decide +kernel)) ⟨1, by decide +kernel⟩ 0 (1/2)
    ⟨by decide +kernel, by decide +kernel, by decide +kernel, ⟨1, by decide +kernel⟩, by decide +kernel, by decide +kernel⟩
  have hw : w' = (allZeeman 0 (runAll staleOps (emptyAtom (1/2) 0))).1 := by rw [h1]
  have hz : Except.ok zs = (allZeeman 0 (runAll staleOps (emptyAtom (1/2) 0))).2 := by rw [h1]
  rw [show (allZeeman 0 (runAll staleOps (emptyAtom (1/2) 0))).2 = .ok [3, 0, 1, 2] by decide +kernel] at hz
  cases hz
  obtain ⟨p, p1, -, a, b, p2, p3, p4⟩ := forall2_left h2 (a := 2) (by decide)
  have hb := h3 p p1
  rw [hw] at p2 p3 p4
  rw [show (allZeeman 0 (runAll staleOps (emptyAtom (1/2) 0))).1.zHz 2 = .ok (101 + muB) by decide +kernel] at p2
  rw [show (allZeeman 0 (runAll staleOps (emptyAtom (1/2) 0))).1.hHz ((allZeeman 0 (runAll staleOps (emptyAtom (1/2) 0))).1.zl 2).parent = .ok 101 by
    decide +kernel] at p3
  cases p2; cases p3
  rw [show ((allZeeman 0 (runAll staleOps (emptyAtom (1/2) 0))).1.zl 2).quad = 0 by decide +kernel] at p4
  rw [p4, show (runAll staleOps (emptyAtom (1/2) 0)).B = 1 by decide +kernel,
    show ((runAll staleOps (emptyAtom (1/2) 0)).lv 0).lande = 1 by decide +kernel] at hb
  norm_num [muB] at hb

/-- A level with g_J = 2, J = 1/2 and I = 1/2 in a field of 3: the Zeeman levels F=0, and F=1 with the shifts -3 μ, 0, 3 μ. -/
example : let w := runAll (hfOps ++ [.setB 3]) (emptyAtom (1/2) 0)
    Findable w 0 (1/2) ∧ (w.lv 0).lande = 2 ∧ (allZeeman 0 w).2 = .ok [3, 0, 1, 2] ∧ (allZeeman 0 w).1.zHz 0 = .ok (101 - 3 * muB) ∧
      (1 : ℚ) * (3 * muB) + 0 + (-1) * (-3 * muB) = (2 * (1/2) + 1) * (2 * muB * 3 * (1/2 * (1/2 + 1) * (2 * (1/2) + 1) / 3)) := by
  refine ⟨⟨by decide +kernel, by decide +kernel, by decide +kernel, ⟨1, by decide +kernel⟩, by decide +kernel, by decide +kernel⟩,
    by decide +kernel, by decide +kernel, by decide +kernel, by ring⟩

example : TimelyAll (hfOps ++ [.setB 3]) (emptyAtom (1/2) 0) := by
  have h0 : ∀ (w : World) (op : Op), (∀ i l A B D, op ≠ .setConsts i l A B D) → ∀ i l A B D, op = .setConsts i l A B D → Timely w i l :=
    fun _ _ h i l A B D e => absurd e (h i l A B D)
  exact ⟨by decide +kernel, h0 _ _ (by simp), by decide +kernel, h0 _ _ (by simp), by decide +kernel, h0 _ _ (by simp),
    by decide +kernel, h0 _ _ (by simp), by decide +kernel, h0 _ _ (by simp), by decide +kernel, h0 _ _ (by simp),
    by decide +kernel, h0 _ _ (by simp), trivial⟩

/-- Rubidium 87, ground state: g_J = 2, I = 3/2, J = 1/2: g_F = -1/2 and 1/2. -/
example : compGF 2 (3/2) (1/2) 1 = .ok (-1/2) ∧ compGF 2 (3/2) (1/2) 2 = .ok (1/2) ∧ hfFs (3/2) (1/2) = [1, 2] ∧
    (-1/2 : ℚ) * (1 * 2 * 3) + 1/2 * (2 * 3 * 5) = 4 * (2 * (1/2 * (3/2) * 2)) := by
  refine ⟨by decide +kernel, by decide +kernel, by decide +kernel, by norm_num⟩

end AtomTk
