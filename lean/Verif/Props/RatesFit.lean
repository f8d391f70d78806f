import Verif.Props.LinkedZ

/-!
# C177: branching ratios and lifetimes fit together
-/

namespace AtomTk
open Util World Strengths

/-- C177: the branching ratio into a level, divided by the lifetime, is the rate of the transition (over 2π, the convention of `state_lifetime`). -/
theorem C177_rate {w : World} (hr : Reachable w) {key : Str} {i : Nat} (hp : Plain w key) (hl : w.g.lev key = some i)
    (hA : ∀ n t, Decay w key i n t → ∃ a, (w.tr t).A = some a ∧ 0 ≤ a) (h0 : ∃ n t a, Decay w key i n t ∧ (w.tr t).A = some a ∧ a ≠ 0) :
    ∃ d x, branching key w = (w, .ok d) ∧ stateLifetime key w = (w, .ok (.sec x)) ∧ 0 < x ∧
      ∀ n t a, Decay w key i n t → (w.tr t).A = some a → ∃ r : ℚ, d.get? n = some (some r) ∧ (r : ℝ) / x = a / (2 * Real.pi) := by
  obtain ⟨d, b1, b2, b3, b4⟩ := C43_distribution_partial w key i hr hp hl hA
  obtain ⟨-, -, -, -, tot, p, q⟩ := b4 h0
  obtain ⟨l, l1, l2, τ, t1, t2, t3⟩ := C44_lifetime w key i hr hp hl hA
  obtain ⟨l', m1, m2, m3⟩ := branching_eq hr hp hl (fun n t h => (hA n t h).imp fun _ h => h.1)
  cases τ with
  | inf => exact absurd h0 (t2.1 rfl)
  | sec x =>
    obtain ⟨hx, hs⟩ := t3 x rfl
    refine ⟨d, x, b1, t1, hx, fun n t a hd ha => ⟨a / tot, q n t a hd ha, ?_⟩⟩
    -- the total is the sum of the rates
    have nd : l.Nodup := List.Nodup.of_map Prod.fst l1
    have nd' : l'.Nodup := List.Nodup.of_map Prod.fst m1
    have hperm : l'.Perm l := (List.perm_ext_iff_of_nodup nd' nd).2 fun ⟨n, t⟩ => (m2 n t).trans (l2 n t).symm
    set S := (l.map (fun p => ((w.tr p.2).A).getD 0)).sum with hS
    have hS' : (l'.map (fun p => ((w.tr p.2).A).getD 0)).sum = S := (hperm.map _).sum_eq
    obtain ⟨n0, t0, a0, d0, e0, z0⟩ := h0
    have g0 := q n0 t0 a0 d0 e0
    rw [b1] at m3
    simp only [Prod.mk.injEq, Except.ok.injEq, true_and] at m3
    have hmem : (n0, some (a0 / tot)) ∈ d := Dict.mem_of_get? g0
    rw [m3] at hmem
    obtain ⟨⟨n1, t1'⟩, k1, k2⟩ := List.mem_map.1 hmem
    simp only [Prod.mk.injEq] at k2
    obtain ⟨rfl, k2⟩ := k2
    have hd1 := (m2 _ _).1 k1
    have : t1' = t0 := by
      have := hd1.2.1.symm.trans d0.2.1
      exact Option.some.inj this
    subst this
    rw [hS', e0] at k2
    have hS0 : S ≠ 0 := by
      intro hz
      rw [hz] at hs
      have := Real.pi_pos
      rw [Rat.cast_zero, mul_zero] at hs
      linarith
    unfold ratio at k2
    rw [if_neg hS0] at k2
    simp only [Option.getD_some, Option.some.injEq] at k2
    have hT : tot = S := by
      field_simp at k2
      exact k2
    rw [hT]
    have hpi := Real.pi_pos
    have hSr : (S : ℝ) ≠ 0 := by exact_mod_cast hS0
    push_cast
    rw [div_div, div_eq_div_iff (mul_ne_zero hSr hx.ne') (by positivity), ← hs]
    ring

/-- For a hyperfine level the rate comes out too large by `(2F+1)/(2J+1)`: the ratios are right (C102), the lifetime is not (C101). -/
theorem C177_hyperfine {W : Wig} (hW : W.Good) {w : World} (hr : Reachable w) {i : Nat} {J F : ℚ} (h : HfReady w i J F) (hd : Radiates w i J F)
    (h0 : ∃ m t a, Decay w (w.lname i) i m t ∧ (w.tr t).A = some a ∧ a ≠ 0) {H : Rows HTr} (hH : H.Fits w i F) :
    ∃ w' w'' d x, hypBranching W H (hypText (w.lname i) F) w = (w', .ok d) ∧ hypLifetime W H (hypText (w.lname i) F) w = (w'', .ok (.sec x)) ∧ 0 < x ∧
      ∀ m t a j J', Decay w (w.lname i) i m t → (w.tr t).A = some a → w.g.lev m = some j → (w.lv j).term.J = some J' →
        ((hfFs w.I J').map (fun F' => shareOf d (hypText m F'))).sum / x = a / (2 * Real.pi) * (((2 * F + 1 : ℚ) : ℝ) / ((2 * J + 1 : ℚ) : ℝ)) := by
  obtain ⟨w', d, d0, b1, b2, -, -, -, -, b3⟩ := C102_branching hW hr h hd h0 hH
  obtain ⟨w'', τ, t1, t2⟩ := C101_lifetime_partial hW hr h hd hH
  obtain ⟨e, x, c1, c2, c3, c4⟩ := C177_rate hr (h.lvl.plain h.ali) h.lvl.reg hd.rate h0
  rw [b2] at c1
  rw [t2] at c2
  simp only [Prod.mk.injEq, Except.ok.injEq, true_and] at c1 c2
  subst c1 c2
  have sF : (0 : ℝ) < ((2 * F + 1 : ℚ) : ℝ) := by
    have := (hfFs_spin h.hI h.lvl.spin h.mem).nonneg
    have : (0 : ℚ) < 2 * F + 1 := by linarith
    exact_mod_cast this
  have sJ : (0 : ℝ) < ((2 * J + 1 : ℚ) : ℝ) := by
    have := h.lvl.spin.nonneg
    have : (0 : ℚ) < 2 * J + 1 := by linarith
    exact_mod_cast this
  refine ⟨w', w'', d, _, b1, t1, by positivity, fun m t a j J' q1 q2 q3 q4 => ?_⟩
  obtain ⟨r, r1, r2⟩ := c4 m t a q1 q2
  rw [(b3 m t j J' r q1 q3 q4 r1).1, ← r2]
  field_simp

/-- For a Zeeman level of a level with dipole lines it comes out too small by `2J+1`. -/
theorem C177_zeeman {W : Wig} (hW : W.Good) {w : World} (hr : Reachable w) {i : Nat} {J F m : ℚ} (h : ZeReady w i J F m) (hd : ZRadiates w i J F m)
    (h0 : ∃ u t a, Decay w (w.lname i) i u t ∧ (w.tr t).A = some a ∧ a ≠ 0) {H : Rows HTr} (hH : H.Fits w i F) {Z : Rows ZTr} (hZ : Z.ZFits w i J F m) :
    ∃ w' w'' d x, zeeBranching W H Z (zeeText (w.lname i) F m) w = (w', .ok d) ∧ zeeLifetime W H Z (zeeText (w.lname i) F m) w = (w'', .ok (.sec x)) ∧ 0 < x ∧
      ∀ u t a j J', Decay w (w.lname i) i u t → (w.tr t).A = some a → w.g.lev u = some j → (w.lv j).term.J = some J' →
        ((hfFs w.I J').map (fun F' => ((zMs F').map (fun m' => shareOf d (zeeText u F' m'))).sum)).sum / x =
          a / (2 * Real.pi) / ((2 * J + 1 : ℚ) : ℝ) := by
  obtain ⟨w', d, d0, b1, b2, -, -, -, -, b3⟩ := C109_branching hW hr h hd h0 hH hZ
  obtain ⟨w'', τ, t1, t2⟩ := C108_lifetime_partial hW hr h hd hH hZ
  obtain ⟨e, x, c1, c2, c3, c4⟩ := C177_rate hr (h.hyp.lvl.plain h.hyp.ali) h.hyp.lvl.reg hd.rate h0
  rw [b2] at c1
  rw [t2] at c2
  simp only [Prod.mk.injEq, Except.ok.injEq, true_and] at c1 c2
  subst c1 c2
  have sJ : (0 : ℝ) < ((2 * J + 1 : ℚ) : ℝ) := by
    have := h.hyp.lvl.spin.nonneg
    have : (0 : ℚ) < 2 * J + 1 := by linarith
    exact_mod_cast this
  refine ⟨w', w'', d, _, b1, t1, by positivity, fun u t a j J' q1 q2 q3 q4 => ?_⟩
  obtain ⟨r, r1, r2⟩ := c4 u t a q1 q2
  rw [(b3 u t j J' r q1 q3 q4 r1).1, ← r2]
  field_simp

/-- The level `a` of `dAtom` and its sublevels F = 3 and F = 3, m = 2. -/
example : ∃ d x, branching (dAtom.lname 1) dAtom = (dAtom, .ok d) ∧ stateLifetime (dAtom.lname 1) dAtom = (dAtom, .ok (.sec x)) ∧ 0 < x ∧
    ∃ r : ℚ, d.get? (dAtom.lname 0) = some (some r) ∧ (r : ℝ) / x = 1 / (2 * Real.pi) := by
  obtain ⟨d, x, h1, h2, h3, h4⟩ := C177_rate dAtom_reachable (dAtom_hf.lvl.plain dAtom_hf.ali) dAtom_hf.lvl.reg dAtom_radiates.rate
    ⟨_, 0, 1, dAtom_decay, by decide +kernel, by norm_num⟩
  obtain ⟨r, r1, r2⟩ := h4 _ 0 1 dAtom_decay (by decide +kernel)
  exact ⟨d, x, h1, h2, h3, r, r1, by simpa using r2⟩

example : ∃ w' w'' d x, hypBranching exactWig Rows.empty (hypText (dAtom.lname 1) 3) dAtom = (w', .ok d) ∧
    hypLifetime exactWig Rows.empty (hypText (dAtom.lname 1) 3) dAtom = (w'', .ok (.sec x)) ∧
    ((hfFs dAtom.I (1/2)).map (fun F' => shareOf d (hypText (dAtom.lname 0) F'))).sum / x = 1 / (2 * Real.pi) * (7 / 4) := by
  obtain ⟨w', w'', d, x, h1, h2, -, h3⟩ := C177_hyperfine exactWig_good dAtom_reachable dAtom_hf dAtom_radiates
    ⟨_, 0, 1, dAtom_decay, by decide +kernel, by norm_num⟩ (Rows.empty_fits dAtom 1 3)
  refine ⟨w', w'', d, x, h1, h2, ?_⟩
  rw [h3 _ 0 1 0 (1/2) dAtom_decay (by decide +kernel) (by decide +kernel) (by decide +kernel)]
  norm_num

example : ∃ w' w'' d x, zeeBranching exactWig Rows.empty Rows.empty (zeeText (dAtom.lname 1) 3 2) dAtom = (w', .ok d) ∧
    zeeLifetime exactWig Rows.empty Rows.empty (zeeText (dAtom.lname 1) 3 2) dAtom = (w'', .ok (.sec x)) ∧
    ((hfFs dAtom.I (1/2)).map (fun F' => ((zMs F').map (fun m' => shareOf d (zeeText (dAtom.lname 0) F' m'))).sum)).sum / x = 1 / (2 * Real.pi) / 4 := by
  obtain ⟨w', w'', d, x, h1, h2, -, h3⟩ := C177_zeeman exactWig_good dAtom_reachable dAtom_ze dAtom_zradiates
    ⟨_, 0, 1, dAtom_decay, by decide +kernel, by norm_num⟩ (Rows.empty_fits dAtom 1 3) (Rows.empty_zfits dAtom 1 (3/2) 3 2)
  refine ⟨w', w'', d, x, h1, h2, ?_⟩
  rw [h3 _ 0 1 0 (1/2) dAtom_decay (by decide +kernel) (by decide +kernel) (by decide +kernel)]
  norm_num

end AtomTk
