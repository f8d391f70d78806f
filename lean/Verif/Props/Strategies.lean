import Verif.Props.Diagram

/-! # C78, C122, C123: margins of boxes, unknown strategies, Zeeman levels with the hyperfine strategy (render/grotrian.py:358-477) -/

namespace AtomTk
open Util World

theorem PyM.bind_inv {α β : Type} {m : PyM α} {f : α → PyM β} {w w' : World} {b : β} (h : (m >>= f) w = (w', .ok b)) :
    ∃ w1 a, m w = (w1, .ok a) ∧ f a w1 = (w', .ok b) := by
  rcases hm : m w with ⟨w1, r⟩
  cases r with
  | error e =>
    rw [PyM.bind_err hm] at h
    cases h
  | ok a => exact ⟨w1, a, rfl, by rwa [PyM.bind_ok hm] at h⟩

theorem PyM.lift_inv {α : Type} {x : Py α} {w w' : World} {b : α} (h : PyM.lift x w = (w', .ok b)) : w' = w ∧ x = .ok b := by
  unfold PyM.lift at h
  simp only [Prod.mk.injEq] at h
  exact ⟨h.1.symm, h.2⟩

/-- The box leaves a margin of 0.05 to the left and right of the lines, and of 5 % of their distance above and below. -/
structure Margin (b : Box) (rs : List DRow) : Prop where
  left : ∃ r ∈ rs, b.x0 = min r.p0.1 r.p1.1 - 5/100
  right : ∃ r ∈ rs, b.x1 = max r.p0.1 r.p1.1 + 5/100
  below : ∃ lo hi, (∃ r ∈ rs, lo = r.p0.2 ∨ lo = r.p1.2) ∧ (∃ r ∈ rs, hi = r.p0.2 ∨ hi = r.p1.2) ∧
    (∀ r ∈ rs, lo ≤ r.p0.2 ∧ lo ≤ r.p1.2 ∧ r.p0.2 ≤ hi ∧ r.p1.2 ≤ hi) ∧ b.y0 = lo - 5/100 * (hi - lo) ∧ b.y1 = hi + 5/100 * (hi - lo)
  inside : ∀ r ∈ rs, b.x0 + 5/100 ≤ min r.p0.1 r.p1.1 ∧ max r.p0.1 r.p1.1 ≤ b.x1 - 5/100

theorem margin_of {rs : List DRow} {b : Box} (h : bbox (rowPts rs) dfltPad = .ok b) (hne : rs ≠ []) : Margin b rs := by
  have hne' : rowPts rs ≠ [] := by
    unfold rowPts
    cases rs with
    | nil => exact absurd rfl hne
    | cons a l => simp
  obtain ⟨b', lx, hx, ly, hy, e, hb, g, ⟨p1, m1, q1⟩, ⟨p2, m2, q2⟩, ⟨p3, m3, q3⟩, p4, m4, q4⟩ := bbox_ok hne' dfltPad
  rw [h] at e
  cases e
  have hd : dfltPad = 5/100 := by norm_num [dfltPad]
  rw [hd] at hb
  have mem : ∀ p, p ∈ rowPts rs → ∃ r ∈ rs, p = r.p0 ∨ p = r.p1 := by
    intro p hp
    rcases List.mem_append.1 hp with hp | hp
    · obtain ⟨r, hr, rfl⟩ := List.mem_map.1 hp; exact ⟨r, hr, .inl rfl⟩
    · obtain ⟨r, hr, rfl⟩ := List.mem_map.1 hp; exact ⟨r, hr, .inr rfl⟩
  have g0 : ∀ r ∈ rs, _ := fun r hr => g r.p0 (List.mem_append_left _ (List.mem_map.2 ⟨r, hr, rfl⟩))
  have g1 : ∀ r ∈ rs, _ := fun r hr => g r.p1 (List.mem_append_right _ (List.mem_map.2 ⟨r, hr, rfl⟩))
  subst hb
  refine ⟨?_, ?_, ⟨ly, hy, ?_, ?_, fun r hr => ⟨(g0 r hr).2.2.1, (g1 r hr).2.2.1, (g0 r hr).2.2.2, (g1 r hr).2.2.2⟩, by ring, by ring⟩,
    fun r hr => ⟨?_, ?_⟩⟩
  · obtain ⟨r, hr, hh⟩ := mem _ m1
    refine ⟨r, hr, ?_⟩
    have : lx = min r.p0.1 r.p1.1 := by
      refine le_antisymm (le_min (g0 r hr).1 (g1 r hr).1) ?_
      rcases hh with hh | hh <;> rw [← q1, hh]
      · exact min_le_left _ _
      · exact min_le_right _ _
    simp only [this]
  · obtain ⟨r, hr, hh⟩ := mem _ m2
    refine ⟨r, hr, ?_⟩
    have : hx = max r.p0.1 r.p1.1 := by
      refine le_antisymm ?_ (max_le (g0 r hr).2.1 (g1 r hr).2.1)
      rcases hh with hh | hh <;> rw [← q2, hh]
      · exact le_max_left _ _
      · exact le_max_right _ _
    simp only [this]
  · obtain ⟨r, hr, hh⟩ := mem _ m3
    exact ⟨r, hr, by rcases hh with hh | hh <;> rw [hh] at q3 <;> simp [q3]⟩
  · obtain ⟨r, hr, hh⟩ := mem _ m4
    exact ⟨r, hr, by rcases hh with hh | hh <;> rw [hh] at q4 <;> simp [q4]⟩
  · simp only [sub_add_cancel]
    exact le_min (g0 r hr).1 (g1 r hr).1
  · simp only [add_sub_cancel_right]
    exact max_le (g0 r hr).2.1 (g1 r hr).2.1

theorem mkRow_box {l : Ref} {b : Box} {shown : Bool} {pad : ℚ} {p0 p1 : Pt} {r : DRow} (h : mkRow l (some b) shown pad p0 p1 = .ok r) :
    r.box = b ∧ r.level = l := by
  unfold mkRow at h
  simp only [Except.ok.injEq] at h
  rw [← h]
  exact ⟨rfl, rfl⟩

theorem levelRow_box {i : Nat} {b : Box} {shown : Bool} {k : DrawKw} {w w' : World} {r : DRow} (h : levelRow i (some b) shown k w = (w', .ok r)) :
    r.box = b ∧ r.level = .fine i := by
  unfold levelRow at h
  obtain ⟨_, _, -, h⟩ := PyM.bind_inv h
  obtain ⟨_, _, -, h⟩ := PyM.bind_inv h
  exact mkRow_box (PyM.lift_inv h).2

theorem hRow_box {j : Nat} {b : Box} {shown : Bool} {k : DrawKw} {w w' : World} {r : DRow} (h : hRow j (some b) shown k w = (w', .ok r)) :
    r.box = b ∧ r.level = .hyp j := by
  unfold hRow at h
  obtain ⟨_, _, -, h⟩ := PyM.bind_inv h
  obtain ⟨_, _, -, h⟩ := PyM.bind_inv h
  obtain ⟨_, _, -, h⟩ := PyM.bind_inv h
  obtain ⟨_, w4, -, h⟩ := PyM.bind_inv h
  obtain ⟨_, _, -, h⟩ := PyM.bind_inv h
  cases hF : (w4.hf j).term.F with
  | none =>
    simp only [hF] at h
    cases h
  | some F =>
    simp only [hF] at h
    obtain ⟨_, _, -, h⟩ := PyM.bind_inv h
    obtain ⟨_, _, -, h⟩ := PyM.bind_inv h
    exact mkRow_box (PyM.lift_inv h).2

theorem bbox_ne {rs : List DRow} {pad : ℚ} {b : Box} (h : bbox (rowPts rs) pad = .ok b) : rs ≠ [] := by
  rintro rfl
  cases h

/-- C78: whenever a table is returned, its last row is the level's, whose box leaves a margin of 5 % around all other lines. -/
theorem C78_margin {i j : Nat} {k : DrawKw} {w w' : World} {rows : List DRow} :
    (hTableF i k w = (w', .ok rows) → ∃ rs r, rows = rs ++ [r] ∧ r.level = .fine i ∧ Margin r.box rs) ∧
      (zTableF i k w = (w', .ok rows) → ∃ rs r, rows = rs ++ [r] ∧ r.level = .fine i ∧ Margin r.box rs) ∧
      (zTableH j k w = (w', .ok rows) → ∃ rs r, rows = rs ++ [r] ∧ r.level = .hyp j ∧ Margin r.box rs) := by
  refine ⟨fun h => ?_, fun h => ?_, fun h => ?_⟩
  · unfold hTableF at h
    obtain ⟨_, _, -, h⟩ := PyM.bind_inv h
    obtain ⟨_, _, -, h⟩ := PyM.bind_inv h
    obtain ⟨_, _, -, h⟩ := PyM.bind_inv h
    obtain ⟨_, rs, -, h⟩ := PyM.bind_inv h
    obtain ⟨_, b, hb, h⟩ := PyM.bind_inv h
    obtain ⟨_, r, hr, h⟩ := PyM.bind_inv h
    cases h
    obtain ⟨e1, e2⟩ := levelRow_box hr
    exact ⟨rs, r, rfl, e2, by rw [e1]; exact margin_of (PyM.lift_inv hb).2 (bbox_ne (PyM.lift_inv hb).2)⟩
  · unfold zTableF at h
    obtain ⟨_, _, -, h⟩ := PyM.bind_inv h
    obtain ⟨_, _, -, h⟩ := PyM.bind_inv h
    obtain ⟨_, _, -, h⟩ := PyM.bind_inv h
    obtain ⟨_, rs, -, h⟩ := PyM.bind_inv h
    obtain ⟨_, b, hb, h⟩ := PyM.bind_inv h
    obtain ⟨_, r, hr, h⟩ := PyM.bind_inv h
    cases h
    obtain ⟨e1, e2⟩ := levelRow_box hr
    exact ⟨rs, r, rfl, e2, by rw [e1]; exact margin_of (PyM.lift_inv hb).2 (bbox_ne (PyM.lift_inv hb).2)⟩
  · unfold zTableH at h
    obtain ⟨_, _, -, h⟩ := PyM.bind_inv h
    obtain ⟨_, _, -, h⟩ := PyM.bind_inv h
    obtain ⟨_, _, -, h⟩ := PyM.bind_inv h
    obtain ⟨_, rs, -, h⟩ := PyM.bind_inv h
    obtain ⟨_, b, hb, h⟩ := PyM.bind_inv h
    obtain ⟨_, r, hr, h⟩ := PyM.bind_inv h
    cases h
    obtain ⟨e1, e2⟩ := hRow_box hr
    exact ⟨rs, r, rfl, e2, by rw [e1]; exact margin_of (PyM.lift_inv hb).2 (bbox_ne (PyM.lift_inv hb).2)⟩

/-- Such tables exist. -/
example : (hTableF 0 {} aloneAtom).2.toOption ≠ none := by decide +kernel

/-- C122: an unknown strategy is taken by `add_level` and raises when the diagram is rendered; the lines before it have been kept, so that the
next rendering draws them a second time. -/
theorem C122_other_raises {w w1 : World} {ps qs : List Prompt} {L : List DRow} {r : Ref} {k : DrawKw} (h : addLines ps [] w = (w1, L, .ok ())) (ts) :
    render (.new (ps ++ ⟨r, .other, k⟩ :: qs) ts) w = (w1, { Diagram.new (ps ++ ⟨r, .other, k⟩ :: qs) ts with lines := L }, .error .TypeError) := by
  have key : ∀ (ps : List Prompt) (L0 L : List DRow) (w : World), addLines ps L0 w = (w1, L, .ok ()) →
      addLines (ps ++ ⟨r, .other, k⟩ :: qs) L0 w = (w1, L, .error .TypeError) := by
    intro ps
    induction ps with
    | nil =>
      intro L0 L w h
      cases h
      rfl
    | cons p ps ih =>
      intro L0 L w h
      rw [List.cons_append, addLines]
      rw [addLines] at h
      rcases hE : tableOf p w with ⟨w2, t⟩
      rw [hE] at h
      cases t with
      | error e => cases h
      | ok t => exact ih _ _ _ h
  unfold render
  rw [show (Diagram.new (ps ++ ⟨r, .other, k⟩ :: qs) ts).levels = ps ++ ⟨r, .other, k⟩ :: qs from rfl,
    show (Diagram.new (ps ++ ⟨r, .other, k⟩ :: qs) ts).lines = [] from rfl, key ps [] L w h]
  rfl

/-- C123, Zeeman levels with the hyperfine strategy: the line of the hyperfine level, moved up by the difference of the Zeeman shift of the one
and the hyperfine shift of the other. -/
theorem C123_displaced {w : World} {i j z : Nat} {J : ℚ} {k : DrawKw} (h : DrawLevel w i J) (hk : DrawKw.Usual k)
    (hj : j ∈ (w.lv i).subs.vals) (hz : z ∈ (w.hf j).subs.vals) :
    ∃ s r hs zs, tableOf ⟨.hyp j, .hyperfine, k⟩ w = (w, .ok [s]) ∧ tableOf ⟨.zee z, .hyperfine, k⟩ w = (w, .ok [r]) ∧
      w.hShift j = .ok hs ∧ w.zShiftHz z = .ok zs ∧ r.level = .zee z ∧ r.shown = true ∧
      r.p0 = (s.p0.1, s.p0.2 + k.hfScale * k.spacing * (zs - hs) / 10 ^ 12) ∧ r.p1 = (s.p1.1, s.p1.2 + k.hfScale * k.spacing * (zs - hs) / 10 ^ 12) := by
  obtain ⟨F, hjF⟩ := (hyp_vals h.reach.subInv h.hI h.hJ h.hs h.hF j).1 hj
  have hsF := hfFs_spin h.hI h.hs hjF.mem
  obtain ⟨m, hm⟩ := (zee_vals h.reach.subInv hjF.J hjF.F hsF z).1 hz
  have hD : Draw w i J := by
    obtain ⟨w1, e1, e2, -⟩ := lazyHF_ok h.reach.subInv.keys h.hI h.inA h.hJ h.hs h.hF
    have hne : (w.lv i).subs ≠ [] := by
      intro h0
      rw [h0] at hj
      cases hj
    unfold lazyHF at e1
    rw [if_neg (by simpa using hne)] at e1
    cases e1
    exact ⟨h.reach.subInv, h.hI, h.inA, h.hJ, h.hs, h.hF, e2⟩
  obtain ⟨lo, hi, e, ⟨h1, h2⟩, h3, h4⟩ := spanOf_ok' hD
  have hzJ : (w.zl z).term.J = some J := by
    obtain ⟨-, -, m', -, h4⟩ := hD.inv.subs.zlOf j _ z hm.get
    rw [h4]; exact hjF.J
  have hp := procKw_ok (t := (w.hf j).term) hD.inA hjF.J hk.ok hk.sq
  have hp' := procKw_ok (t := (w.zl z).term) hD.inA hzJ hk.ok hk.sq
  have d0 : (2 * ((sq w.I J : ℤ) : ℚ) + 1) ≠ 0 := by
    intro hc
    have : (2 * sq w.I J + 1 : ℤ) = 0 := by exact_mod_cast hc
    omega
  have hzs : w.zShiftHz z = .ok (zShift (w.zl z).gF m (w.zl z).quad w.B) := by
    unfold zShiftHz
    rw [hm.mF]
  let dx := (1 - k.subWidth) * (k.width - ((hfFs w.I J).length - 1) * k.offset * k.width) / 2 +
    k.subWidth * (k.width * (2 * F + 1) / (2 * (sq w.I J : ℚ) + 1)) / 2
  let x0 := k.offset * k.width * (F - lo) - dx + k.x1 + k.x0.getD J
  let x1 := k.offset * k.width * (F - lo) + dx + k.x1 + k.x0.getD J
  let y := fun v : ℚ => k.y0.getD (w.eHz i / 1000000000000) + k.y1 + k.hfScale / 1000000000000 *
    (k.spacing * v + (1 - k.spacing) * (F - lo - (hfFs w.I J).length / 2) * |w.shiftAt i J hi - w.shiftAt i J lo| / (hfFs w.I J).length)
  have q1 : ∃ s, hRow j none true k w = (w, .ok s) ∧ s.p0 = (x0, y (shiftAt w i J F)) ∧ s.p1 = (x1, y (shiftAt w i J F)) := by
    unfold hRow
    rw [PyM.bind_ok (show PyM.get w = (w, .ok w) from rfl), hjF.par]
    simp only
    rw [PyM.bind_ok hp]
    simp only
    rw [PyM.bind_ok hD.lazy, PyM.bind_ok (show PyM.get w = (w, .ok w) from rfl)]
    rw [PyM.bind_ok (show PyM.lift (w.spanOf i) w = (w, .ok _) by rw [e]; rfl)]
    simp only [hjF.F]
    rw [PyM.bind_ok (show PyM.lift (pyDiv (k.width * (2 * F + 1)) (2 * (sq w.I J : ℚ) + 1)) w = (w, .ok _) by rw [pyDiv_ok d0]; rfl)]
    rw [PyM.bind_ok (show PyM.lift (w.hShift j) w = (w, .ok _) by rw [hjF.shift]; rfl)]
    exact mkRow_ok _ _ _ _ _ _ _ _ fun b _ _ => ⟨rfl, rfl⟩
  obtain ⟨s, s1, s2, s3⟩ := q1
  have q2 : ∃ r, hRowZ z k w = (w, .ok r) ∧ r.level = .zee z ∧ r.shown = true ∧
      r.p0 = (x0, y (zShift (w.zl z).gF m (w.zl z).quad w.B)) ∧ r.p1 = (x1, y (zShift (w.zl z).gF m (w.zl z).quad w.B)) := by
    unfold hRowZ
    rw [PyM.bind_ok (show PyM.get w = (w, .ok w) from rfl), hm.par, hjF.par]
    simp only
    rw [PyM.bind_ok hp']
    simp only
    rw [PyM.bind_ok hD.lazy, PyM.bind_ok (show PyM.get w = (w, .ok w) from rfl)]
    rw [PyM.bind_ok (show PyM.lift (w.spanOf i) w = (w, .ok _) by rw [e]; rfl)]
    simp only [hm.F]
    rw [PyM.bind_ok (show PyM.lift (pyDiv (k.width * (2 * F + 1)) (2 * (sq w.I J : ℚ) + 1)) w = (w, .ok _) by rw [pyDiv_ok d0]; rfl)]
    rw [PyM.bind_ok (show PyM.lift (w.zShiftHz z) w = (w, .ok _) by rw [hzs]; rfl)]
    exact mkRow_ok _ _ _ _ _ _ _ _ fun b _ _ => ⟨rfl, rfl, rfl, rfl⟩
  obtain ⟨r, r1, r2, r3, r4, r5⟩ := q2
  refine ⟨s, r, shiftAt w i J F, zShift (w.zl z).gF m (w.zl z).quad w.B, ?_, ?_, hjF.shift, hzs, r2, r3, ?_, ?_⟩
  · show single _ w = _
    unfold single
    rw [PyM.bind_ok s1]; rfl
  · show single _ w = _
    unfold single
    rw [PyM.bind_ok r1]; rfl
  · rw [s2, r4]
    simp only [Prod.mk.injEq, true_and, y]
    generalize (1 - k.spacing) * (F - lo - (hfFs w.I J).length / 2) * |w.shiftAt i J hi - w.shiftAt i J lo| / (hfFs w.I J).length = u
    ring
  · rw [s3, r5]
    simp only [Prod.mk.injEq, true_and, y]
    generalize (1 - k.spacing) * (F - lo - (hfFs w.I J).length / 2) * |w.shiftAt i J hi - w.shiftAt i J lo| / (hfFs w.I J).length = u
    ring

/-- The hypotheses are met. -/
example : ∃ s r hs zs, tableOf ⟨.hyp 1, .hyperfine, {}⟩ aloneAtom = (aloneAtom, .ok [s]) ∧ tableOf ⟨.zee 0, .hyperfine, {}⟩ aloneAtom = (aloneAtom, .ok [r]) ∧
    aloneAtom.hShift 1 = .ok hs ∧ aloneAtom.zShiftHz 0 = .ok zs ∧ r.p0.2 = s.p0.2 + 10000 * (zs - hs) / 10 ^ 12 := by
  obtain ⟨s, r, hs, zs, h1, h2, h3, h4, -, -, h5, -⟩ := C123_displaced (j := 1) (z := 0) aloneAtom_draw kw_usual (by decide +kernel) (by decide +kernel)
  refine ⟨s, r, hs, zs, h1, h2, h3, h4, ?_⟩
  rw [h5]
  norm_num

/-- A diagram with an unknown strategy after a level drawn as a whole. -/
example : (render (.new [⟨.fine 0, .gross, {}⟩, ⟨.fine 0, .other, {}⟩] []) aloneAtom).2.2 = .error .TypeError := by
  rcases hE : addLines [⟨.fine 0, .gross, {}⟩] [] aloneAtom with ⟨w1, L, r⟩
  have hr : r = .ok () := by
    have : (addLines [⟨.fine 0, .gross, {}⟩] [] aloneAtom).2.2 = .ok () := by decide +kernel
    rwa [hE] at this
  subst hr
  have := C122_other_raises (qs := []) (r := .fine 0) (k := {}) hE []
  rw [List.singleton_append] at this
  rw [this]

end AtomTk
