import Verif.Props.Strengths

/-!
# Geometry of the light

C103: turning polarisation and wave vector together about the quantisation axis changes no strength.  C104: the quadrupole strength
is the squared modulus of the quadrupole matrix element.
-/

namespace AtomTk.Strengths

open Racah

/-- A vector turned about the z axis by the angle with cosine `c` and sine `s`. -/
def V3.turn (c s : ℝ) (v : V3) : V3 := ⟨c * v.x - s * v.y, s * v.x + c * v.y, v.z⟩

theorem V3.norm_turn {c s : ℝ} (h : c ^ 2 + s ^ 2 = 1) (v : V3) : (v.turn c s).norm = v.norm := by
  unfold V3.norm V3.turn
  simp only
  congr 1
  linear_combination (v.x ^ 2 + v.y ^ 2) * h

theorem V3.unit_turn {c s : ℝ} (h : c ^ 2 + s ^ 2 = 1) (v : V3) : (v.turn c s).unit = v.unit.turn c s := by
  unfold V3.unit
  rw [V3.norm_turn h]
  unfold V3.turn
  simp only [V3.mk.injEq, and_true]
  constructor <;> ring

/-! ## C103 -/

/-- The full claim: neither the dipole nor the quadrupole functions notice a turn of the light about the quantisation axis. -/
def C103_full : Prop := ∀ (W : Wig), W.Good → ∀ (s : States), s.Halves → 0 ≤ s.F0 → 0 ≤ s.F1 → ∀ (eps k : V3) (co si : ℝ),
  eps.Nonzero → k.Nonzero → eps.dot k = 0 → co ^ 2 + si ^ 2 = 1 →
  (e1StrengthGeom W (eps.turn co si) s = e1StrengthGeom W eps s) ∧
  (∃ m m', e1MelGeom W eps s = .ok m ∧ e1MelGeom W (eps.turn co si) s = .ok m' ∧ Complex.normSq m' = Complex.normSq m) ∧
  (quadStrengthGeom W (eps.turn co si) (k.turn co si) s = quadStrengthGeom W eps k s) ∧
  ∃ m m', quadMelGeom W eps k s = .ok m ∧ quadMelGeom W (eps.turn co si) (k.turn co si) s = .ok m' ∧
    Complex.normSq m' = Complex.normSq m

/-- C103 for the dipole strengths, whatever the Wigner functions. -/
theorem C103_dipole_partial (W : Wig) (s : States) (eps : V3) {co si : ℝ} (h : co ^ 2 + si ^ 2 = 1) :
    e1StrengthGeom W (eps.turn co si) s = e1StrengthGeom W eps s ∧
    m1StrengthGeom W (eps.turn co si) s = m1StrengthGeom W eps s := by
  have key : e1StrengthGeom W (eps.turn co si) s = e1StrengthGeom W eps s := by
    unfold e1StrengthGeom
    rw [V3.unit_turn h]
    have e : ∀ u : V3, (u.turn co si).x ^ 2 + (u.turn co si).y ^ 2 = u.x ^ 2 + u.y ^ 2 := by
      intro u
      unfold V3.turn
      linear_combination (u.x ^ 2 + u.y ^ 2) * h
    simp only [e]
    rfl
  exact ⟨key, by rw [(C54_magnetic W s _).2.1, (C54_magnetic W s _).2.1, key]⟩

/-- C103 for the dipole matrix elements. -/
theorem C103_dipole_mel_partial {W : Wig} (hW : W.Good) (s : States) (hs : s.Halves) (h0 : 0 ≤ s.F0) (h1 : 0 ≤ s.F1) (eps : V3)
    {co si : ℝ} (h : co ^ 2 + si ^ 2 = 1) :
    ∃ m m', e1MelGeom W eps s = .ok m ∧ e1MelGeom W (eps.turn co si) s = .ok m' ∧ Complex.normSq m' = Complex.normSq m := by
  obtain ⟨m, v, hm, hv, e⟩ := C54_square_partial hW s hs h0 h1 eps
  obtain ⟨m', v', hm', hv', e'⟩ := C54_square_partial hW s hs h0 h1 (eps.turn co si)
  refine ⟨m, m', hm, hm', ?_⟩
  unfold e1StrengthGeomCall at hv hv'
  simp only [VArg.hashable, VArg.v, if_true] at hv hv'
  rw [(C103_dipole_partial W s eps h).1, hv] at hv'
  rw [← e, ← e']
  exact (Except.ok.inj hv').symm

/-- The five quadrupole components; all but the one with `q = M1 - M0` vanish. -/
theorem quad_components {W : Wig} (hW : W.Good) (s : States) (hs : s.Halves) : ∃ g : ℤ → ℝ,
    (∀ q : ℤ, tkqMel W 2 q s = .ok (g q)) ∧ ∀ q : ℤ, s.M1 ≠ s.M0 + q → g q = 0 := by
  have hr : ∀ q : ℤ, ∃ a, tkqMel W 2 q s = .ok a := by
    intro q
    obtain ⟨x, hx⟩ := (C58_returns hW s.J0 s.J1 2 s.F1 s.F0 s.I).2
    obtain ⟨y, hy⟩ := (C58_returns hW s.F1 2 s.F0 (-s.M1) q s.M0).1
    unfold tkqMel
    rw [hx, hy]
    exact ⟨_, rfl⟩
  choose g hg using hr
  refine ⟨g, hg, ?_⟩
  intro q h
  have := (C52_selection hW 2 q s hs h).2
  push_cast at this
  rw [hg] at this
  exact Except.ok.inj this

/-- The quadrupole matrix element from its components. -/
theorem quadMel_eq {W : Wig} {s : States} {g : ℤ → ℝ} (hg : ∀ q : ℤ, tkqMel W 2 q s = .ok (g q)) (eps k : V3) :
    ∃ m, quadMelGeom W eps k s = .ok m ∧
      m.re = (g (-2) + g 2) * (eps.unit.x * k.unit.x - k.unit.y * eps.unit.y) +
        (g 1 - g (-1)) * (k.unit.x * eps.unit.z + k.unit.z * eps.unit.x) +
        g 0 * (-Real.sqrt 6 * k.unit.x * eps.unit.x + Real.sqrt 6 * k.unit.y * eps.unit.y + 2 / 3 * Real.sqrt 6 * k.unit.z * eps.unit.z) ∧
      m.im = (g 2 - g (-2)) * (k.unit.x * eps.unit.y + k.unit.y + eps.unit.x) +
        (g 1 + g (-1)) * (k.unit.y * eps.unit.z + k.unit.z * eps.unit.y) := by
  have ha := hg (-2)
  have hb := hg (-1)
  have hc := hg 0
  have hd := hg 1
  have hf := hg 2
  push_cast at ha hb hc hd hf
  unfold quadMelGeom
  rw [ha, hb, hc, hd, hf]
  refine ⟨_, rfl, ?_, ?_⟩ <;>
  simp only [Complex.add_re, Complex.add_im, Complex.mul_re, Complex.mul_im, Complex.ofReal_re, Complex.neg_re, Complex.neg_im,
    Complex.ofReal_im, Complex.I_re, Complex.I_im, Complex.sub_re, Complex.sub_im, Complex.zero_re, Complex.zero_im] <;> ring

/-- C103 for the quadrupole matrix elements, unless `M` stays or changes by two. -/
theorem C103_quad_partial {W : Wig} (hW : W.Good) (s : States) (hs : s.Halves) (h0 : s.M1 ≠ s.M0) (h2 : s.M1 ≠ s.M0 + 2)
    (h2' : s.M1 ≠ s.M0 - 2) (eps k : V3) {co si : ℝ} (h : co ^ 2 + si ^ 2 = 1) :
    ∃ m m', quadMelGeom W eps k s = .ok m ∧ quadMelGeom W (eps.turn co si) (k.turn co si) s = .ok m' ∧
      Complex.normSq m' = Complex.normSq m := by
  obtain ⟨g, hg, hz⟩ := quad_components hW s hs
  obtain ⟨m, hm, hre, him⟩ := quadMel_eq hg eps k
  obtain ⟨m', hm', hre', him'⟩ := quadMel_eq hg (eps.turn co si) (k.turn co si)
  refine ⟨m, m', hm, hm', ?_⟩
  have g0 := hz 0 (by simpa using h0)
  have g2 := hz 2 (by simpa using h2)
  have g3 := hz (-2) (by push_cast; rwa [← sub_eq_add_neg])
  have g11 : g 1 * g (-1) = 0 := by
    by_cases hh : s.M1 = s.M0 + (1 : ℤ)
    · rw [hz (-1) (by rw [hh]; push_cast; intro h'; linarith), mul_zero]
    · rw [hz 1 hh, zero_mul]
  rw [V3.unit_turn h, V3.unit_turn h] at hre' him'
  rw [Complex.normSq_apply, Complex.normSq_apply, hre, him, hre', him', g0, g2, g3]
  unfold V3.turn
  simp only
  set e := eps.unit
  set u := k.unit
  linear_combination ((g 1 ^ 2 + g (-1) ^ 2) * ((u.x * e.z + u.z * e.x) ^ 2 + (u.y * e.z + u.z * e.y) ^ 2)) * h +
    (2 * ((si * (u.x * e.z + u.z * e.x) + co * (u.y * e.z + u.z * e.y)) ^ 2 -
      (co * (u.x * e.z + u.z * e.x) - si * (u.y * e.z + u.z * e.y)) ^ 2) +
      2 * ((u.x * e.z + u.z * e.x) ^ 2 - (u.y * e.z + u.z * e.y) ^ 2)) * g11

/-- States with J = 0 and J = 2, without nuclear spin. -/
def quadStates (M : ℤ) : States := ⟨half 0, half 0, half 0, half 0, half 4, half 4, half (2 * M)⟩

theorem quadStates_halves (M : ℤ) : (quadStates M).Halves :=
  ⟨⟨0, rfl⟩, ⟨0, rfl⟩, ⟨0, rfl⟩, ⟨0, rfl⟩, ⟨4, rfl⟩, ⟨4, rfl⟩, ⟨2 * M, rfl⟩⟩

theorem quadStates_mel (M : ℤ) (hM : M = 0 ∨ M = 1 ∨ M = 2) :
    ∃ v, tkqMel exactWig (2 : ℤ) M (quadStates M) = .ok v ∧ v ^ 2 = 6 / 25 := by
  have hk : ((2 : ℤ) : ℚ) = half 4 := by norm_num [half]
  have hq : (M : ℚ) = half (2 * M) := by unfold half; push_cast; ring
  unfold tkqMel quadStates
  simp only
  rw [hk, hq, half_neg, w6j_half exactWig_good, w3j_half exactWig_good]
  refine ⟨_, rfl, ?_⟩
  rw [mul_pow, one_mul, mul_pow, mul_pow, Real.sq_sqrt (by norm_num [half]), Real.sq_sqrt (by norm_num [half]), w6_sq, w3_sq,
    if_pos (by decide)]
  have e1 : norm6 0 4 4 4 0 0 * core6 0 4 4 4 0 0 ^ 2 = 1 / 5 := by decide +kernel
  rw [e1]
  rcases hM with rfl | rfl | rfl
  · have e2 : norm3 4 4 0 (-(2 * 0)) (2 * 0) 0 * core3 4 4 0 (-(2 * 0)) (2 * 0) 0 ^ 2 = 1 / 5 := by decide +kernel
    rw [if_pos (by decide), e2]
    norm_num [half]
  · have e2 : norm3 4 4 0 (-(2 * 1)) (2 * 1) 0 * core3 4 4 0 (-(2 * 1)) (2 * 1) 0 ^ 2 = 1 / 5 := by decide +kernel
    rw [if_pos (by decide), e2]
    norm_num [half]
  · have e2 : norm3 4 4 0 (-(2 * 2)) (2 * 2) 0 * core3 4 4 0 (-(2 * 2)) (2 * 2) 0 ^ 2 = 1 / 5 := by decide +kernel
    rw [if_pos (by decide), e2]
    norm_num [half]

/-- The components for the states with J = 0 and J = 2. -/
theorem quadStates_comp (M : ℤ) (hM : M = 0 ∨ M = 1 ∨ M = 2) : ∃ g : ℤ → ℝ,
    (∀ q : ℤ, tkqMel exactWig 2 q (quadStates M) = .ok (g q)) ∧ (∀ q : ℤ, q ≠ M → g q = 0) ∧ g M ^ 2 = 6 / 25 := by
  obtain ⟨g, hg, hz⟩ := quad_components exactWig_good (quadStates M) (quadStates_halves M)
  obtain ⟨v, hv, e⟩ := quadStates_mel M hM
  refine ⟨g, hg, ?_, ?_⟩
  · intro q hq
    apply hz
    simp only [quadStates, half]
    push_cast
    intro h
    apply hq
    have : (q : ℚ) = M := by linarith
    exact_mod_cast this
  · push_cast at hv
    rw [hg] at hv
    rw [Except.ok.inj hv, e]

theorem norm_ex : V3.norm ⟨1, 0, 0⟩ = 1 := by norm_num [V3.norm]

theorem norm_ey : V3.norm ⟨0, 1, 0⟩ = 1 := by norm_num [V3.norm]

theorem norm_ez : V3.norm ⟨0, 0, 1⟩ = 1 := by norm_num [V3.norm]

theorem unit_ex : V3.unit ⟨1, 0, 0⟩ = ⟨1, 0, 0⟩ := by simp [V3.unit, norm_ex]

theorem unit_ey : V3.unit ⟨0, 1, 0⟩ = ⟨0, 1, 0⟩ := by simp [V3.unit, norm_ey]

theorem unit_ez : V3.unit ⟨0, 0, 1⟩ = ⟨0, 0, 1⟩ := by simp [V3.unit, norm_ez]

/-- For `M` staying, light polarised along x and travelling along y has no amplitude, turned light has one. -/
theorem C103_fails : ¬C103_full := by
  intro h
  obtain ⟨-, -, -, m, m', hm, hm', e⟩ := h exactWig exactWig_good (quadStates 0) (quadStates_halves 0) (by norm_num [quadStates, half])
    (by norm_num [quadStates, half]) ⟨1, 0, 0⟩ ⟨0, 1, 0⟩ (3 / 5) (4 / 5) (.inl one_ne_zero) (.inr (.inl one_ne_zero))
    (by norm_num [V3.dot]) (by norm_num)
  obtain ⟨g, hg, hz, hv⟩ := quadStates_comp 0 (.inl rfl)
  obtain ⟨n, hn, hre, him⟩ := quadMel_eq hg ⟨1, 0, 0⟩ ⟨0, 1, 0⟩
  obtain ⟨n', hn', hre', him'⟩ := quadMel_eq hg (V3.turn (3 / 5) (4 / 5) ⟨1, 0, 0⟩) (V3.turn (3 / 5) (4 / 5) ⟨0, 1, 0⟩)
  rw [hn] at hm
  rw [hn'] at hm'
  cases hm
  cases hm'
  rw [V3.unit_turn (by norm_num), V3.unit_turn (by norm_num)] at hre' him'
  rw [Complex.normSq_apply, Complex.normSq_apply, hre, him, hre', him', hz 2 (by decide), hz 1 (by decide), hz (-1) (by decide),
    hz (-2) (by decide), unit_ex, unit_ey] at e
  simp only [V3.turn] at e
  have h6 : Real.sqrt 6 ^ 2 = 6 := Real.sq_sqrt (by norm_num)
  nlinarith

/-- For `M` changing by two, light travelling along the axis has an amplitude when polarised along x and none when polarised
along y. -/
theorem C103_two_fails : ∃ m m', quadMelGeom exactWig ⟨1, 0, 0⟩ ⟨0, 0, 1⟩ (quadStates 2) = .ok m ∧
    quadMelGeom exactWig (V3.turn 0 1 ⟨1, 0, 0⟩) (V3.turn 0 1 ⟨0, 0, 1⟩) (quadStates 2) = .ok m' ∧ m' = 0 ∧ m ≠ 0 := by
  obtain ⟨g, hg, hz, hv⟩ := quadStates_comp 2 (.inr (.inr rfl))
  obtain ⟨n, hn, hre, him⟩ := quadMel_eq hg ⟨1, 0, 0⟩ ⟨0, 0, 1⟩
  obtain ⟨n', hn', hre', him'⟩ := quadMel_eq hg (V3.turn 0 1 ⟨1, 0, 0⟩) (V3.turn 0 1 ⟨0, 0, 1⟩)
  refine ⟨n, n', hn, hn', ?_, ?_⟩
  · rw [hz 0 (by decide)] at hre'
    rw [V3.unit_turn (by norm_num), V3.unit_turn (by norm_num), hz 1 (by decide), hz (-1) (by decide),
      unit_ex, unit_ez] at hre' him'
    simp only [V3.turn] at hre' him'
    apply Complex.ext
    · rw [hre']; simp
    · rw [him']; simp
  · intro h
    rw [h, hz (-2) (by decide), hz 1 (by decide), hz (-1) (by decide), unit_ex, unit_ez] at him
    simp at him
    rw [← him] at hv
    norm_num at hv

/-- The strength for `M` changing by one: light travelling along the axis has none when polarised along y. -/
theorem C103_strength_fails : ∃ v, quadStrengthGeom exactWig ⟨1, 0, 0⟩ ⟨0, 0, 1⟩ (quadStates 1) = .ok v ∧ 0 < v ∧
    quadStrengthGeom exactWig (V3.turn 0 1 ⟨1, 0, 0⟩) (V3.turn 0 1 ⟨0, 0, 1⟩) (quadStates 1) = .ok 0 := by
  obtain ⟨g, hg, hz, hv⟩ := quadStates_comp 1 (.inr (.inl rfl))
  have hsq : ∀ q : ℤ, tkqStrength exactWig 2 q (quadStates 1) = .ok (g q ^ 2) := by
    intro q
    rw [C52_square _ _ _ _ (by norm_num [quadStates, half]) (by norm_num [quadStates, half]), hg]
    rfl
  have ha := hsq (-2)
  have hb := hsq (-1)
  have hc := hsq 0
  have hd := hsq 1
  have hf := hsq 2
  push_cast at ha hb hc hd hf
  unfold quadStrengthGeom
  rw [ha, hb, hc, hd, hf, V3.unit_turn (by norm_num), V3.unit_turn (by norm_num), unit_ex, unit_ez, hz 2 (by decide),
    hz (-2) (by decide), hz 0 (by decide), hz (-1) (by decide)]
  refine ⟨_, rfl, ?_, ?_⟩
  · simp only
    nlinarith
  · simp only [V3.turn, bind, Except.bind, Except.ok.injEq]
    ring

/-- A turn, and states for which `C103_quad_partial` speaks. -/
example : ((3 / 5 : ℝ)) ^ 2 + (4 / 5) ^ 2 = 1 ∧ (quadStates 1).M1 ≠ (quadStates 1).M0 ∧
    (quadStates 1).M1 ≠ (quadStates 1).M0 + 2 ∧ (quadStates 1).M1 ≠ (quadStates 1).M0 - 2 := by
  norm_num [quadStates, half]

/-! ## C104 -/

/-- The full claim: the quadrupole strength is the squared modulus of the quadrupole matrix element. -/
def C104_full : Prop := ∀ (W : Wig), W.Good → ∀ (s : States), s.Halves → 0 ≤ s.F0 → 0 ≤ s.F1 → ∀ (eps k : V3),
  eps.Nonzero → k.Nonzero → eps.dot k = 0 →
  ∃ m v, quadMelGeom W eps k s = .ok m ∧ quadStrengthGeom W eps k s = .ok v ∧ v = Complex.normSq m

/-- C104 for `M` changing by one and light in the xz plane. -/
theorem C104_plane_partial {W : Wig} (hW : W.Good) (s : States) (hs : s.Halves) (p0 : 0 ≤ s.F0) (p1 : 0 ≤ s.F1)
    (hM : s.M1 = s.M0 + 1 ∨ s.M1 = s.M0 - 1) (eps k : V3) (he : eps.y = 0) (hk : k.y = 0) :
    ∃ m v, quadMelGeom W eps k s = .ok m ∧ quadStrengthGeom W eps k s = .ok v ∧ v = Complex.normSq m := by
  obtain ⟨g, hg, hz⟩ := quad_components hW s hs
  obtain ⟨m, hm, hre, him⟩ := quadMel_eq hg eps k
  have hsq : ∀ q : ℤ, tkqStrength W 2 q s = .ok (g q ^ 2) := by
    intro q
    rw [C52_square _ _ _ _ p0 p1, hg]
    rfl
  have ha := hsq (-2)
  have hb := hsq (-1)
  have hc := hsq 0
  have hd := hsq 1
  have hf := hsq 2
  push_cast at ha hb hc hd hf
  have g0 := hz 0 (by push_cast; rcases hM with h | h <;> rw [h] <;> intro h' <;> linarith)
  have g2 := hz 2 (by push_cast; rcases hM with h | h <;> rw [h] <;> intro h' <;> linarith)
  have g3 := hz (-2) (by push_cast; rcases hM with h | h <;> rw [h] <;> intro h' <;> linarith)
  have g11 : g 1 * g (-1) = 0 := by
    by_cases hh : s.M1 = s.M0 + (1 : ℤ)
    · rw [hz (-1) (by rw [hh]; push_cast; intro h'; linarith), mul_zero]
    · rw [hz 1 hh, zero_mul]
  have e1 : eps.unit.y = 0 := by simp [V3.unit, he]
  have e2 : k.unit.y = 0 := by simp [V3.unit, hk]
  refine ⟨m, _, hm, ?_, rfl⟩
  unfold quadStrengthGeom
  rw [ha, hb, hc, hd, hf]
  simp only [bind, Except.bind, Except.ok.injEq]
  rw [Complex.normSq_apply, hre, him, g0, g2, g3, e1, e2]
  linear_combination (2 * (eps.unit.z * k.unit.x + eps.unit.x * k.unit.z) ^ 2) * g11

/-- C104 for `M` unchanged and light in the yz plane. -/
theorem C104_central_partial {W : Wig} (hW : W.Good) (s : States) (hs : s.Halves) (p0 : 0 ≤ s.F0) (p1 : 0 ≤ s.F1)
    (hM : s.M1 = s.M0) (eps k : V3) (he : eps.x = 0) (hk : k.x = 0) :
    ∃ m v, quadMelGeom W eps k s = .ok m ∧ quadStrengthGeom W eps k s = .ok v ∧ v = Complex.normSq m := by
  obtain ⟨g, hg, hz⟩ := quad_components hW s hs
  obtain ⟨m, hm, hre, him⟩ := quadMel_eq hg eps k
  have hsq : ∀ q : ℤ, tkqStrength W 2 q s = .ok (g q ^ 2) := by
    intro q
    rw [C52_square _ _ _ _ p0 p1, hg]
    rfl
  have ha := hsq (-2)
  have hb := hsq (-1)
  have hc := hsq 0
  have hd := hsq 1
  have hf := hsq 2
  push_cast at ha hb hc hd hf
  have g1 := hz 1 (by push_cast; rw [hM]; intro h'; linarith)
  have g1' := hz (-1) (by push_cast; rw [hM]; intro h'; linarith)
  have g2 := hz 2 (by push_cast; rw [hM]; intro h'; linarith)
  have g2' := hz (-2) (by push_cast; rw [hM]; intro h'; linarith)
  have e1 : eps.unit.x = 0 := by simp [V3.unit, he]
  have e2 : k.unit.x = 0 := by simp [V3.unit, hk]
  refine ⟨m, _, hm, ?_, rfl⟩
  unfold quadStrengthGeom
  rw [ha, hb, hc, hd, hf]
  simp only [bind, Except.bind, Except.ok.injEq]
  rw [Complex.normSq_apply, hre, him, g1, g1', g2, g2', e1, e2]
  have h6 : Real.sqrt 6 ^ 2 = 6 := Real.sq_sqrt (by norm_num)
  linear_combination (-(g 0 ^ 2 * (k.unit.y * eps.unit.y + 2 / 3 * k.unit.z * eps.unit.z) ^ 2)) * h6

/-- For `M` changing by two, light travelling along the axis has an amplitude but no strength. -/
theorem C104_fails : ¬C104_full := by
  intro h
  obtain ⟨m, v, hm, hv, e⟩ := h exactWig exactWig_good (quadStates 2) (quadStates_halves 2) (by norm_num [quadStates, half])
    (by norm_num [quadStates, half]) ⟨1, 0, 0⟩ ⟨0, 0, 1⟩ (.inl one_ne_zero) (.inr (.inr one_ne_zero)) (by norm_num [V3.dot])
  obtain ⟨m1, -, hm1, -, -, hne⟩ := C103_two_fails
  rw [hm] at hm1
  cases hm1
  obtain ⟨g, hg, hz, -⟩ := quadStates_comp 2 (.inr (.inr rfl))
  have hsq : ∀ q : ℤ, tkqStrength exactWig 2 q (quadStates 2) = .ok (g q ^ 2) := by
    intro q
    rw [C52_square _ _ _ _ (by norm_num [quadStates, half]) (by norm_num [quadStates, half]), hg]
    rfl
  have ha := hsq (-2)
  have hb := hsq (-1)
  have hc := hsq 0
  have hd := hsq 1
  have hf := hsq 2
  push_cast at ha hb hc hd hf
  unfold quadStrengthGeom at hv
  rw [ha, hb, hc, hd, hf, unit_ex, unit_ez, hz 1 (by decide), hz (-2) (by decide), hz 0 (by decide), hz (-1) (by decide)] at hv
  simp only [bind, Except.bind, Except.ok.injEq] at hv
  have : Complex.normSq m = 0 := by rw [← e, ← hv]; ring
  exact hne (Complex.normSq_eq_zero.1 this)

/-- Light in the yz plane, and states with the same `M`. -/
example : (quadStates 0).M1 = (quadStates 0).M0 ∧ (V3.mk 0 1 1).x = 0 ∧ (V3.mk 0 1 (-1)).x = 0 ∧ (V3.mk 0 1 1).dot (V3.mk 0 1 (-1)) = 0 := by
  norm_num [quadStates, half, V3.dot]

/-- Light in the xz plane, and states between which `M` changes by one. -/
example : (quadStates 1).M1 = (quadStates 1).M0 + 1 ∧ (V3.mk 1 0 0).y = 0 ∧ (V3.mk 0 0 1).y = 0 := by
  norm_num [quadStates, half]

end AtomTk.Strengths
