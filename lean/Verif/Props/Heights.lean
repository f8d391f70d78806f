import Verif.Props.Grotrian

/-!
# Heights in Grotrian diagrams

C105: with realistic spacing the lines are at the heights of the energies.  C106: with schematic spacing they are equally spaced.
-/

namespace AtomTk

open Util World

/-- The energies of the sublevels in terms of the shifts. -/
theorem hHz_shift {w : World} {i j : Nat} {J F : ℚ} (h : IsHyp w i J j F) : w.hHz j = .ok (w.eHz i + shiftAt w i J F) := by
  unfold hHz
  rw [h.shift, h.par]
  rfl

/-! ## C105 -/

/-- C105, hyperfine strategy: with realistic spacing the line of every hyperfine level is above the height of the level itself by its
distance in energy (in THz), enlarged by `hf_scale`. -/
theorem C105_hyperfine {w : World} {i : Nat} {J : ℚ} {k : DrawKw} (h : DrawLevel w i J) (hk : DrawKw.Usual k) (h1 : k.spacing = 1) :
    ∃ w' rows y, hTableF i k w = (w', .ok rows) ∧ (∀ s ∈ rows, s.level = .fine i → s.p0.2 = y) ∧
      (k.y0 = none → y = w.eHz i / 1000000000000 + k.y1) ∧ (∀ c, k.y0 = some c → y = c + k.y1) ∧
      ∀ j ∈ (w'.lv i).subs.vals, ∃ r e, RowOf rows j r ∧ w'.hHz j = .ok e ∧
        r.p0.2 = y + k.hfScale * (e - w.eHz i) / 1000000000000 := by
  obtain ⟨w', rs, fr, lo, e1, e2, e3, e4, e5, e6, e7, e8, e9⟩ := hTableF_ok h.reach.subInv h.hI h.inA h.hJ h.hs h.hF hk.ok hk.sq
  refine ⟨w', _, yOf w' i k, e1, ?_, ?_, ?_, ?_⟩
  · intro s hs hsi
    rcases List.mem_append.1 hs with hs | hs
    · obtain ⟨F, -, j, -, g, -⟩ := forall2_mem_right e9 hs
      rw [g.level] at hsi
      cases hsi
    · rw [List.mem_singleton.1 hs]
      exact e5.2
  · intro hy
    simp only [yOf, hy, Option.getD_none, e3.eHz]
  · intro c hy
    simp only [yOf, hy, Option.getD_some]
  · intro j hj
    obtain ⟨F, hF⟩ := (hyp_vals e2.inv e2.hI e2.hJ e2.hs e2.hF j).1 hj
    have hm : F ∈ hfFs w.I J := by rw [← e3.I]; exact hF.mem
    obtain ⟨r, hr, j', g1, g2, -, lo', hi', -, -, g3⟩ := forall2_mem_left e9 hm
    have hjj := hF.unique g1
    subst hjj
    refine ⟨r, _, ⟨List.mem_append_left _ hr, g2.level⟩, hHz_shift hF, ?_⟩
    rw [g3, h1, e3.eHz]
    ring

/-- The height of a Zeeman line, from the parts of the table. -/
theorem zRow_height {w : World} {k : DrawKw} {i : Nat} {I J : ℚ} {js : List Nat} {parts : List (List DRow)}
    (h : List.Forall₂ (fun j rs => ZPart k i I J j w rs) js parts) {r : DRow} (hr : r ∈ parts.flatten) {z : Nat} (hz : r.level = .zee z) :
    ZHeight w k z r ∧ (w.hf (w.zl z).parent).parent = i := by
  obtain ⟨rs, h1, h2⟩ := List.mem_flatten.1 hr
  obtain ⟨j, -, F, zr, hr', -, ⟨-, -, g4⟩, rfl, g6, -, -, g9⟩ := forall2_mem_right h h1
  rcases List.mem_append.1 h2 with h2 | h2
  · obtain ⟨m, -, z', ⟨⟨-, k1⟩, -, k2⟩, k3⟩ := forall2_mem_right g9 h2
    have := k3.level
    rw [hz] at this
    cases this
    exact ⟨k1, by rw [k2, g4]⟩
  · rw [List.mem_singleton.1 h2, g6] at hz
    cases hz

/-- C105, Zeeman strategy: the distance to the hyperfine level is enlarged by `z_scale` in addition. -/
theorem C105_zeeman {w : World} {i : Nat} {J : ℚ} {k : DrawKw} (h : DrawLevel w i J) (hk : DrawKw.Usual k) (h1 : k.spacing = 1)
    {w' : World} {rows : List DRow} (he : zTableF i k w = (w', .ok rows)) :
    ∃ y, (∀ s ∈ rows, s.level = .fine i → s.p0.2 = y) ∧ (k.y0 = none → y = w.eHz i / 1000000000000 + k.y1) ∧
      (∀ c, k.y0 = some c → y = c + k.y1) ∧
      ∀ r ∈ rows, ∀ z, r.level = .zee z → ∃ e eh, w'.zHz z = .ok e ∧ w'.hHz (w'.zl z).parent = .ok eh ∧
        r.p0.2 = y + k.hfScale * ((eh - w.eHz i) + k.zScale * (e - eh)) / 1000000000000 := by
  have hJI : 1 ≤ J + w.I := by
    by_contra hc
    have := C68_small_raises h hk (not_le.1 hc)
    rw [he] at this
    cases this
  have hfl : 1 ≤ ⌊J + w.I⌋ := Int.le_floor.2 (by exact_mod_cast hJI)
  have hsq := sq_eq h.hI h.hs
  obtain ⟨w2, parts, fr, e1, e2, e3, e4, e5, e6, e7⟩ := zTableF_ok h.reach.subInv h.hI h.inA h.hJ h.hs h.hF hk.ok hk.sq
    (by rw [hsq]; omega) (by rw [hsq]; omega)
  rw [he] at e1
  simp only [Prod.mk.injEq, Except.ok.injEq] at e1
  obtain ⟨rfl, rfl⟩ := e1
  refine ⟨yOf w' i k, ?_, ?_, ?_, ?_⟩
  · intro s hs hsi
    rcases List.mem_append.1 hs with hs | hs
    · obtain ⟨rs, g1, g2⟩ := List.mem_flatten.1 hs
      obtain ⟨j, -, F, zr, hr', -, -, rfl, g6, -, -, g9⟩ := forall2_mem_right e7 g1
      rcases List.mem_append.1 g2 with g2 | g2
      · obtain ⟨m, -, z', -, k3⟩ := forall2_mem_right g9 g2
        rw [k3.level] at hsi
        cases hsi
      · rw [List.mem_singleton.1 g2, g6] at hsi
        cases hsi
    · rw [List.mem_singleton.1 hs]
      exact e5.2
  · intro hy
    simp only [yOf, hy, Option.getD_none, e3.eHz]
  · intro c hy
    simp only [yOf, hy, Option.getD_some]
  · intro r hr z hz
    rcases List.mem_append.1 hr with hr | hr
    · obtain ⟨g1, g2⟩ := zRow_height e7 hr hz
      obtain ⟨hs, zs, k1, k2, k3⟩ := g1.1 h1
      refine ⟨_, _, by unfold zHz hHz; rw [k1, k2]; rfl, by unfold hHz; rw [k1]; rfl, ?_⟩
      rw [k3, g2, e3.eHz]
      ring
    · rw [List.mem_singleton.1 hr, e4] at hz
      cases hz

/-- With realistic spacing the lines are drawn in the order of the energies. -/
theorem C105_order {w : World} {i : Nat} {J : ℚ} {k : DrawKw} (h : DrawLevel w i J) (hk : DrawKw.Usual k) (h1 : k.spacing = 1)
    (hp : 0 < k.hfScale) : ∃ w' rows, hTableF i k w = (w', .ok rows) ∧ ∀ j ∈ (w'.lv i).subs.vals, ∀ j' ∈ (w'.lv i).subs.vals,
      ∃ r r' e e', RowOf rows j r ∧ RowOf rows j' r' ∧ w'.hHz j = .ok e ∧ w'.hHz j' = .ok e' ∧ (r.p0.2 < r'.p0.2 ↔ e < e') := by
  obtain ⟨w', rows, y, g1, -, -, -, g2⟩ := C105_hyperfine h hk h1
  refine ⟨w', rows, g1, fun j hj j' hj' => ?_⟩
  obtain ⟨r, e, a1, a2, a3⟩ := g2 j hj
  obtain ⟨r', e', b1, b2, b3⟩ := g2 j' hj'
  refine ⟨r, r', e, e', a1, b1, a2, b2, ?_⟩
  rw [a3, b3]
  constructor
  · intro hh
    have : k.hfScale * (e - w.eHz i) < k.hfScale * (e' - w.eHz i) := by linarith
    linarith [lt_of_mul_lt_mul_left this hp.le]
  · intro hh
    have : k.hfScale * (e - w.eHz i) < k.hfScale * (e' - w.eHz i) := mul_lt_mul_of_pos_left (by linarith) hp
    linarith

/-- The defaults are realistic; the example atom. -/
example : DrawLevel dAtom 0 (1/2) ∧ DrawKw.Usual {} ∧ (({} : DrawKw)).spacing = 1 ∧ 0 < ({} : DrawKw).hfScale ∧
    (zTableF 0 {} dAtom).2.toOption.isSome = true := ⟨dAtom_draw, kw_usual, rfl, by norm_num, by decide +kernel⟩

/-! ## C106 -/

/-- The full claim: with schematic spacing the hyperfine lines are equally spaced, in the order of the energies, and their mean is the
height of the level itself. -/
def C106_full : Prop := ∀ (w : World) (i : Nat) (J : ℚ) (k : DrawKw), DrawLevel w i J → DrawKw.Usual k → k.spacing = 0 → 0 < k.hfScale →
  ∃ w' rows, hTableF i k w = (w', .ok rows) ∧
    (∀ j ∈ (w'.lv i).subs.vals, ∀ j' ∈ (w'.lv i).subs.vals, ∃ r r' e e', RowOf rows j r ∧ RowOf rows j' r' ∧ w'.hHz j = .ok e ∧
      w'.hHz j' = .ok e' ∧ (e ≤ e' → r.p0.2 ≤ r'.p0.2)) ∧
    ∀ s ∈ rows, s.level = .fine i → ((rows.filter (·.shown)).map (·.p0.2)).sum = (rows.filter (·.shown)).length * s.p0.2

/-- C106: equal steps from `F` to `F + 1`; all steps together (one more than there are gaps) are the distance between the outermost
`F` in energy, enlarged by `hf_scale`.  Missing: order and centre, see `C106_fails` and `C106_order_fails`. -/
theorem C106_steps_partial {w : World} {i : Nat} {J : ℚ} {k : DrawKw} (h : DrawLevel w i J) (hk : DrawKw.Usual k) (h0 : k.spacing = 0) :
    ∃ w' rows d, hTableF i k w = (w', .ok rows) ∧
      (∀ j ∈ (w'.lv i).subs.vals, ∀ j' ∈ (w'.lv i).subs.vals, ∃ F F' r r', (w'.hf j).term.F = some F ∧ (w'.hf j').term.F = some F' ∧
        RowOf rows j r ∧ RowOf rows j' r' ∧ r'.p0.2 - r.p0.2 = d * (F' - F)) ∧
      ∃ j ∈ (w'.lv i).subs.vals, ∃ j' ∈ (w'.lv i).subs.vals, ∃ e e', w'.hHz j = .ok e ∧ w'.hHz j' = .ok e' ∧
        (w'.hf j).term.F = some |J - w.I| ∧ (w'.hf j').term.F = some (J + w.I) ∧
        d * (w'.lv i).subs.vals.length = k.hfScale * |e' - e| / 1000000000000 := by
  obtain ⟨w', rs, fr, lo, e1, e2, e3, e4, e5, e6, e7, e8, e9⟩ := hTableF_ok h.reach.subInv h.hI h.inA h.hJ h.hs h.hF hk.ok hk.sq
  obtain ⟨N, n1, n2⟩ := spin_count h.hI h.hs
  have mem : ∀ n : ℕ, n < N → |J - w.I| + (n : ℚ) ∈ hfFs w'.I J := by
    intro n hn
    rw [e3.I]
    unfold hfFs
    rw [arange_nat _ _ N n1]
    exact List.mem_map.2 ⟨n, List.mem_range.2 hn, rfl⟩
  have bd : ∀ F ∈ hfFs w'.I J, |J - w.I| ≤ F ∧ F ≤ J + w.I := by
    intro F hF
    rw [e3.I] at hF
    unfold hfFs at hF
    rw [arange_nat _ _ N n1] at hF
    obtain ⟨n, hn, rfl⟩ := List.mem_map.1 hF
    rw [List.mem_range] at hn
    have : (n : ℚ) + 1 ≤ N := by exact_mod_cast hn
    have : (0 : ℚ) ≤ n := by positivity
    constructor <;> linarith
  have hN : 0 < N := by
    rcases Nat.eq_zero_or_pos N with h' | h'
    · exfalso
      have : hfFs w'.I J = [] := by
        rw [e3.I]; unfold hfFs; rw [arange_nat _ _ N n1, h']; rfl
      exact hfFs_ne e2.hI e2.hs this
    · exact h'
  have mlo : |J - w.I| ∈ hfFs w'.I J := by simpa using mem 0 hN
  have mhi : J + w.I ∈ hfFs w'.I J := by
    have h' := mem (N - 1) (by omega)
    have hc : ((N - 1 : ℕ) : ℚ) = N - 1 := by push_cast [Nat.cast_sub (show 1 ≤ N by omega)]; ring
    rw [hc] at h'
    have : |J - w.I| + ((N : ℚ) - 1) = J + w.I := by linarith
    rwa [this] at h'
  have key : ∀ j ∈ (w'.lv i).subs.vals, ∃ F r, (w'.hf j).term.F = some F ∧ RowOf (rs ++ [fr]) j r ∧
      r.p0.2 = yOf w' i k + k.hfScale / 1000000000000 * ((F - |J - w.I| - (hfFs w'.I J).length / 2) *
        |shiftAt w' i J (J + w.I) - shiftAt w' i J (|J - w.I|)| / (hfFs w'.I J).length) := by
    intro j hj
    obtain ⟨F, hF⟩ := (hyp_vals e2.inv e2.hI e2.hJ e2.hs e2.hF j).1 hj
    have hm : F ∈ hfFs w.I J := by rw [← e3.I]; exact hF.mem
    obtain ⟨r, hr, j', g1, g2, -, lo', hi', ⟨a1, a2⟩, ⟨b1, b2⟩, g3⟩ := forall2_mem_left e9 hm
    have hjj := hF.unique g1
    subst hjj
    obtain rfl : lo' = |J - w.I| := le_antisymm (a2 _ mlo) (bd _ a1).1
    obtain rfl : hi' = J + w.I := le_antisymm (bd _ b1).2 (b2 _ mhi)
    refine ⟨F, r, hF.F, ⟨List.mem_append_left _ hr, g2.level⟩, ?_⟩
    rw [g3, h0]
    ring
  refine ⟨w', _, k.hfScale / 1000000000000 * |shiftAt w' i J (J + w.I) - shiftAt w' i J (|J - w.I|)| / (hfFs w'.I J).length, e1, ?_, ?_⟩
  · intro j hj j' hj'
    obtain ⟨F, r, a1, a2, a3⟩ := key j hj
    obtain ⟨F', r', b1, b2, b3⟩ := key j' hj'
    refine ⟨F, F', r, r', a1, b1, a2, b2, ?_⟩
    rw [a3, b3]
    ring
  · obtain ⟨j, hj⟩ := hyp_all e2.inv e2.hJ e2.hI e2.hs e2.hF e2.keys mlo
    obtain ⟨j', hj'⟩ := hyp_all e2.inv e2.hJ e2.hI e2.hs e2.hF e2.keys mhi
    refine ⟨j, (hyp_vals e2.inv e2.hI e2.hJ e2.hs e2.hF j).2 ⟨_, hj⟩, j', (hyp_vals e2.inv e2.hI e2.hJ e2.hs e2.hF j').2 ⟨_, hj'⟩, _, _,
      hHz_shift hj, hHz_shift hj', hj.F, hj'.F, ?_⟩
    have hl : (w'.lv i).subs.vals.length = (hfFs w'.I J).length := (hyp_zip e2).length_eq
    have hne : ((hfFs w'.I J).length : ℚ) ≠ 0 := by
      have := List.length_pos_iff.2 (hfFs_ne e2.hI e2.hs)
      exact_mod_cast this.ne'
    rw [hl, div_mul_cancel₀ _ hne, add_sub_add_left_eq_sub]
    ring

/-- A row at the height of a hyperfine level has no other height. -/
theorem HHeight.unique {w w1 w2 : World} (f1 : LFrame w w1) (f2 : LFrame w w2) {k : DrawKw} {i : Nat} {J F : ℚ} {R R' : DRow}
    (h : HHeight w1 k i J F R) (h' : HHeight w2 k i J F R') : R.p0.2 = R'.p0.2 := by
  obtain ⟨lo, hi, ⟨a1, a2⟩, ⟨b1, b2⟩, e⟩ := h
  obtain ⟨lo', hi', ⟨a1', a2'⟩, ⟨b1', b2'⟩, e'⟩ := h'
  simp only [f1.I, f1.shiftAt, f1.yOf] at a1 a2 b1 b2 e
  simp only [f2.I, f2.shiftAt, f2.yOf] at a1' a2' b1' b2' e'
  obtain rfl : lo = lo' := le_antisymm (a2 _ a1') (a2' _ a1)
  obtain rfl : hi = hi' := le_antisymm (b2' _ b1) (b2 _ b1')
  rw [e, e']

/-- C106, Zeeman strategy: with schematic spacing all Zeeman lines of an `F` are at the height that the hyperfine strategy draws the
line of this `F` at. -/
theorem C106_zeeman {w : World} {i : Nat} {J : ℚ} {k : DrawKw} (h : DrawLevel w i J) (hk : DrawKw.Usual k) (h0 : k.spacing = 0)
    {w1 : World} {zrows : List DRow} (he : zTableF i k w = (w1, .ok zrows))
    {w2 : World} {hrows : List DRow} (he' : hTableF i k w = (w2, .ok hrows)) :
    ∀ r ∈ zrows, ∀ z, r.level = .zee z → ∃ j s, RowOf hrows j s ∧ (w2.hf j).term.F = (w1.zl z).term.F ∧ r.p0.2 = s.p0.2 := by
  have hJI : 1 ≤ J + w.I := by
    by_contra hc
    have := C68_small_raises h hk (not_le.1 hc)
    rw [he] at this
    cases this
  have hfl : 1 ≤ ⌊J + w.I⌋ := Int.le_floor.2 (by exact_mod_cast hJI)
  have hsq := sq_eq h.hI h.hs
  obtain ⟨w1', parts, fr, e1, e2, e3, e4, e5, e6, e7⟩ := zTableF_ok h.reach.subInv h.hI h.inA h.hJ h.hs h.hF hk.ok hk.sq
    (by rw [hsq]; omega) (by rw [hsq]; omega)
  rw [he] at e1
  simp only [Prod.mk.injEq, Except.ok.injEq] at e1
  obtain ⟨rfl, rfl⟩ := e1
  obtain ⟨w2', rs, fr', lo, d1, d2, d3, d4, d5, d6, d7, d8, d9⟩ := hTableF_ok h.reach.subInv h.hI h.inA h.hJ h.hs h.hF hk.ok hk.sq
  rw [he'] at d1
  simp only [Prod.mk.injEq, Except.ok.injEq] at d1
  obtain ⟨rfl, rfl⟩ := d1
  intro r hr z hz
  rcases List.mem_append.1 hr with hr | hr
  · obtain ⟨g1, g2⟩ := zRow_height e7 hr hz
    obtain ⟨J', F, k1, k2, hF, k3⟩ := g1.2 h0
    rw [g2] at k1 k3
    rw [e2.hJ] at k1
    cases k1
    rw [e3.I] at hF
    obtain ⟨s, hs, j', y1, y2, -, y3⟩ := forall2_mem_left d9 hF
    exact ⟨j', s, ⟨List.mem_append_left _ hs, y2.level⟩, by rw [y1.F, k2], HHeight.unique e3 d3 k3 y3⟩
  · rw [List.mem_singleton.1 hr, e4] at hz
    cases hz

/-- Schematic spacing. -/
def flatKw : DrawKw := { spacing := 0 }

theorem flatKw_usual : DrawKw.Usual flatKw :=
  ⟨⟨by norm_num [flatKw], by norm_num [flatKw], by norm_num [flatKw], by norm_num [flatKw]⟩, .inl rfl, by norm_num [flatKw], by norm_num [flatKw],
    by norm_num [flatKw]⟩

/-- The lines are half a step too low: `F = 1` is drawn a step below the level, `F = 2` at the level. -/
theorem C106_fails : ¬C106_full := by
  intro h
  obtain ⟨w', rows, h1, -, h2⟩ := h dAtom 0 (1/2) flatKw dAtom_draw flatKw_usual rfl (by norm_num [flatKw])
  have hrows : (hTableF 0 flatKw dAtom).2.toOption.getD [] = rows := by rw [h1]; rfl
  have h3 : ¬∀ s ∈ (hTableF 0 flatKw dAtom).2.toOption.getD [], s.level = .fine 0 →
      ((((hTableF 0 flatKw dAtom).2.toOption.getD []).filter (·.shown)).map (·.p0.2)).sum =
        (((hTableF 0 flatKw dAtom).2.toOption.getD []).filter (·.shown)).length * s.p0.2 := by decide +kernel
  rw [hrows] at h3
  exact h3 h2

/-- A level with negative `A`. -/
def negOps : List Op := [.newLevel (demoTerm 'g') 0 2 (-1) 0 0 none, .addLevel 0 false none]

/-- With negative `A` the upper of two hyperfine levels is drawn below the lower one. -/
theorem C106_order_fails : let w := runAll negOps (emptyAtom (3/2) 0)
    let t := hTableF 0 flatKw w
    DrawLevel w 0 (1/2) ∧ ∃ r ∈ t.2.toOption.getD [], ∃ r' ∈ t.2.toOption.getD [], r.level = .hyp 0 ∧ r'.level = .hyp 1 ∧
      (t.1.hHz 0).toOption = some (5/4) ∧ (t.1.hHz 1).toOption = some (-3/4) ∧ r.p0.2 < r'.p0.2 := by
  refine ⟨⟨(Reachable.empty (3/2) 0).runAll (by decide +kernel), ⟨3, by decide +kernel⟩, by decide +kernel, by decide +kernel, ⟨1, by norm_num⟩,
    by decide +kernel⟩, by decide +kernel⟩

end AtomTk
