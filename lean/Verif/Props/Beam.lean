import Verif.Props.Render

/-! # C120: the methods of a Gaussian beam (environment.py:47-60)

No beam comes out of the constructor (C76_beam_raises); the theorems are about objects with the attributes set. -/

namespace AtomTk

/-- A beam with the attributes that the constructor means to set: `E0` is the field of a plane light field. -/
structure Beam.Meant (c eps : ℝ) (b : Beam) (f : LightField) : Prop where
  w0 : 0 < b.w0
  zr : b.zr ≠ 0
  pol : b.pol = f.pol
  E0 : b.E0 = f.E c eps
  unit : vnorm f.pol = 1

/-- The full claim: in the middle of the waist the field is that of the plane light field, and everywhere the magnetic field is as large
as the electric field divided by `c`. -/
def C120_full : Prop := ∀ (c eps : ℝ) (b : Beam) (f : LightField), 0 < c → 0 < eps → 0 < f.intensity → b.Meant c eps f → f.pol.length = 3 →
  b.E 0 0 = f.E c eps ∧ ∀ z r, ∃ B, b.B c z r = .ok B ∧ c * vnorm B = vnorm (b.E z r)

/-- The width is `w0` at the waist and the root of two times that at the Rayleigh range; it is the same on both sides and grows with
the distance. -/
theorem C120_width_partial {b : Beam} (h0 : 0 < b.w0) (hz : b.zr ≠ 0) :
    b.w 0 = b.w0 ∧ b.w b.zr = Real.sqrt 2 * b.w0 ∧ (∀ z, b.w (-z) = b.w z) ∧ (∀ z z', |z| < |z'| → b.w z < b.w z') ∧ ∀ z, b.w0 ≤ b.w z := by
  have key : ∀ z z', |z| < |z'| → b.w z < b.w z' := by
    intro z z' h
    unfold Beam.w beamW
    refine mul_lt_mul_of_pos_left (Real.sqrt_lt_sqrt (by positivity) ?_) h0
    have : z ^ 2 < z' ^ 2 := sq_lt_sq.2 h
    have hp : 0 < b.zr ^ 2 := by positivity
    have := div_lt_div_of_pos_right this hp
    linarith
  have k0 : b.w 0 = b.w0 := by unfold Beam.w beamW; simp
  refine ⟨k0, ?_, ?_, key, ?_⟩
  · unfold Beam.w beamW
    rw [div_self (by positivity)]
    norm_num
    ring
  · intro z
    unfold Beam.w beamW
    rw [neg_sq]
  · intro z
    by_cases h : z = 0
    · rw [h, k0]
    · rw [← k0]
      exact (key 0 z (by simpa using h)).le

theorem Beam.w_pos {b : Beam} (h0 : 0 < b.w0) (z : ℝ) : 0 < b.w z := by
  unfold Beam.w beamW
  have : 0 < Real.sqrt (1 + z ^ 2 / b.zr ^ 2) := Real.sqrt_pos.2 (by positivity)
  positivity

/-- The profile is Gaussian: at distance `r` from the axis the squared size of the field is that on the axis times
`exp (-2 r^2 / w^2)`, and on the axis it falls as the area grows. -/
theorem C120_profile_partial {b : Beam} (h0 : 0 < b.w0) (z r : ℝ) :
    vnorm (b.E z r) ^ 2 = vnorm (b.E z 0) ^ 2 * Real.exp (-2 * r ^ 2 / b.w z ^ 2) ∧
    vnorm (b.E z 0) ^ 2 * b.w z ^ 2 = vnorm (b.E 0 0) ^ 2 * b.w0 ^ 2 := by
  have hw := Beam.w_pos h0 z
  have k0 : b.w 0 = b.w0 := by unfold Beam.w beamW; simp
  unfold Beam.E
  simp only [vnorm_scale]
  constructor
  · have : Real.exp (-2 * r ^ 2 / b.w z ^ 2) = Real.exp (-r * r / b.w z ^ 2) ^ 2 := by
      rw [← Real.exp_nat_mul]; congr 1; push_cast; ring
    rw [this]
    simp only [mul_zero, zero_div, Real.exp_zero, mul_pow]
    ring
  · rw [k0]
    simp only [mul_zero, zero_div, Real.exp_zero, mul_one]
    field_simp

/-- The Gouy phase: odd, an eighth of a turn at the Rayleigh range, less than a quarter turn everywhere, growing along the beam. -/
theorem C120_phase {b : Beam} (hz : 0 < b.zr) : b.phase 0 = 0 ∧ b.phase b.zr = Real.pi / 4 ∧ (∀ z, b.phase (-z) = -b.phase z) ∧
    (∀ z, |b.phase z| < Real.pi / 2) ∧ StrictMono b.phase := by
  unfold Beam.phase
  refine ⟨by simp, ?_, ?_, ?_, ?_⟩
  · rw [div_self hz.ne', Real.arctan_one]
  · intro z
    rw [neg_div, Real.arctan_neg]
  · intro z
    exact abs_lt.2 ⟨by have := Real.neg_pi_div_two_lt_arctan (z / b.zr); linarith, Real.arctan_lt_pi_div_two _⟩
  · intro z z' h
    exact Real.arctan_strictMono (div_lt_div_of_pos_right h hz)

/-- The radius of curvature: away from the waist it is at least twice the Rayleigh range, and equal to that only at the Rayleigh range;
at the waist, where the fronts are flat, it raises. -/
theorem C120_radius {b : Beam} (hz : 0 < b.zr) : b.radius 0 = .error .ZeroDivisionError ∧
    ∀ z, z ≠ 0 → ∃ R, b.radius z = .ok R ∧ 0 < R * z ∧ 2 * b.zr ≤ |R| ∧ (|R| = 2 * b.zr ↔ |z| = b.zr) ∧ b.radius (-z) = .ok (-R) := by
  refine ⟨by unfold Beam.radius; simp, fun z h => ⟨_, by unfold Beam.radius; rw [if_neg h], ?_, ?_⟩⟩
  · have : z * (1 + b.zr ^ 2 / z ^ 2) * z = z ^ 2 * (1 + b.zr ^ 2 / z ^ 2) := by ring
    rw [this]
    positivity
  · have ha : 0 < |z| := abs_pos.2 h
    have e : |z * (1 + b.zr ^ 2 / z ^ 2)| = |z| + b.zr ^ 2 / |z| := by
      rw [abs_mul, abs_of_pos (show 0 < 1 + b.zr ^ 2 / z ^ 2 by positivity), ← sq_abs z]
      field_simp
    have d : |z| + b.zr ^ 2 / |z| - 2 * b.zr = (|z| - b.zr) ^ 2 / |z| := by field_simp; ring
    have hp : 0 ≤ (|z| - b.zr) ^ 2 / |z| := by positivity
    refine ⟨by rw [e]; linarith, ?_, ?_⟩
    · rw [e]
      constructor
      · intro hh
        rw [hh, sub_self] at d
        have := (div_eq_zero_iff.1 d.symm).resolve_right ha.ne'
        have := pow_eq_zero_iff (two_ne_zero) |>.1 this
        linarith
      · intro hh
        rw [hh, sub_self] at d
        rw [hh]
        have : (0 : ℝ) ^ 2 / b.zr = 0 := by simp
        rw [this] at d
        linarith
    · unfold Beam.radius
      rw [if_neg (neg_ne_zero.2 h)]
      congr 1
      rw [neg_sq]
      ring

/-- For light polarised along one axis the field in the middle of the waist is that of the plane light field. -/
theorem C120_axis_partial {c eps : ℝ} {b : Beam} {f : LightField} (h : b.Meant c eps f) (hp : ∀ p ∈ f.pol, p = 0 ∨ p = 1) :
    b.E 0 0 = f.E c eps := by
  have k0 : b.w 0 = b.w0 := by unfold Beam.w beamW; simp
  have key : ∀ (s : ℂ) (l : List ℂ), (∀ p ∈ l, p = 0 ∨ p = 1) → l.zipWith (· * ·) (l.map (· * s)) = l.map (· * s) := by
    intro s l
    induction l with
    | nil => intro _; rfl
    | cons a l ih =>
      intro hl
      simp only [List.map_cons, List.zipWith_cons_cons]
      rw [ih (fun p hp => hl p (by simp [hp]))]
      rcases hl a (by simp) with rfl | rfl <;> simp
  unfold Beam.E
  rw [k0, h.pol, h.E0]
  unfold LightField.E
  rw [key _ _ hp, div_self h.w0.ne']
  simp

/-- The magnetic field is zero for every polarisation along an axis: the code takes the cross product of the field with the polarisation,
not with the wave vector. -/
theorem C120_magnetic_zero {c eps : ℝ} {b : Beam} {f : LightField} (h : b.Meant c eps f) (hp : ∀ p ∈ f.pol, p = 0 ∨ p = 1)
    (h3 : f.pol.length = 3) (z r : ℝ) : b.B c z r = .ok [0, 0, 0] := by
  obtain ⟨k, i, pol⟩ := f
  match pol, h3 with
  | [p1, p2, p3], _ =>
    have h1 := hp p1 (by simp)
    have h2 := hp p2 (by simp)
    have h3 := hp p3 (by simp)
    unfold Beam.B Beam.E
    rw [h.pol, h.E0]
    simp only [LightField.E, List.map_cons, List.map_nil, List.zipWith_cons_cons, List.zipWith_nil_left, cross3, bind, Except.bind,
      Except.ok.injEq, List.cons.injEq, and_true]
    rcases h1 with rfl | rfl <;> rcases h2 with rfl | rfl <;> rcases h3 with rfl | rfl <;> simp

/-- How large the magnetic field is: for a polarisation of length one it is `E/c` less the part of the field along its own polarisation. -/
theorem C120_magnetic {c eps : ℝ} (hc : 0 < c) {b : Beam} {f : LightField} (h : b.Meant c eps f) (h1 : vnorm f.pol = 1) (h3 : f.pol.length = 3) (z r : ℝ) :
    ∃ B, b.B c z r = .ok B ∧ B.length = 3 ∧
      (c * vnorm B) ^ 2 = vnorm (b.E z r) ^ 2 - ‖((b.E z r).zipWith (fun e p => e * starRingEnd ℂ p) f.pol).sum‖ ^ 2 := by
  obtain ⟨k, i, pol⟩ := f
  match pol, h3 with
  | [p1, p2, p3], _ =>
    have hv := vnorm_sq [p1, p2, p3]
    rw [show vnorm [p1, p2, p3] = 1 from h1] at hv
    have hE : ∃ e1 e2 e3, b.E z r = [e1, e2, e3] := by
      unfold Beam.E
      rw [h.pol, h.E0]
      exact ⟨_, _, _, rfl⟩
    obtain ⟨e1, e2, e3, he⟩ := hE
    unfold Beam.B
    rw [he, h.pol]
    refine ⟨_, rfl, rfl, ?_⟩
    rw [mul_pow, vnorm_sq, vnorm_sq]
    simp only [List.map_cons, List.map_nil, List.sum_cons, List.sum_nil, List.zipWith_cons_cons, List.zipWith_nil_left, add_zero, ← Complex.normSq_eq_norm_sq,
      Complex.normSq_mul, Complex.normSq_ofReal] at hv ⊢
    have hc' : c ^ 2 * (1 / c * (1 / c)) = 1 := by field_simp
    have e : ∀ x y u : ℝ, c ^ 2 * ((1 / c * (1 / c)) * x + ((1 / c * (1 / c)) * y + (1 / c * (1 / c)) * u)) = x + (y + u) := by
      intro x y u
      linear_combination (x + (y + u)) * hc'
    rw [e]
    simp only [Complex.normSq_apply, Complex.sub_re, Complex.sub_im, Complex.mul_re, Complex.mul_im, Complex.add_re, Complex.add_im, Complex.conj_re,
      Complex.conj_im] at hv ⊢
    linear_combination (-(e1.re * e1.re + e1.im * e1.im + (e2.re * e2.re + e2.im * e2.im + (e3.re * e3.re + e3.im * e3.im)))) * hv

/-- Light polarised along z, of intensity 1. -/
def axisLight : LightField := ⟨[1, 0, 0], 1, [0, 0, 1]⟩

/-- A beam of this light, with `c = eps = 1`. -/
noncomputable def axisBeam : Beam := ⟨[0, 0, 1], 1, 1, axisLight.E 1 1⟩

theorem axisBeam_meant : axisBeam.Meant 1 1 axisLight :=
  ⟨one_pos, one_ne_zero, rfl, rfl, by unfold vnorm axisLight; simp⟩

theorem C120_fails : ¬C120_full := by
  intro h
  obtain ⟨h1, h2⟩ := h 1 1 axisBeam axisLight one_pos one_pos one_pos axisBeam_meant rfl
  have hp : ∀ p ∈ axisLight.pol, p = 0 ∨ p = 1 := by simp [axisLight]
  obtain ⟨B, h3, h4⟩ := h2 0 0
  rw [C120_magnetic_zero axisBeam_meant hp rfl] at h3
  cases h3
  rw [h1] at h4
  have := C76_intensity_partial (f := axisLight) one_pos one_pos (by norm_num [axisLight]) axisBeam_meant.unit
  rw [← h4] at this
  norm_num [vnorm, axisLight] at this

/-- Circular light along z: one part along x, one part along y a quarter turn later. -/
noncomputable def circLight : LightField := ⟨[0, 0, 1], 1, [(Real.sqrt (1 / 2) : ℝ), (Real.sqrt (1 / 2) : ℝ) * Complex.I, 0]⟩

/-- A beam of this light, with `c = eps = 1`. -/
noncomputable def circBeam : Beam := ⟨circLight.pol, 1, 1, circLight.E 1 1⟩

theorem circBeam_meant : circBeam.Meant 1 1 circLight := by
  refine ⟨one_pos, one_ne_zero, rfl, rfl, ?_⟩
  have h : vnorm circLight.pol ^ 2 = 1 := by
    rw [vnorm_sq]
    simp [circLight, Complex.norm_real]
    norm_num
  have h0 : 0 ≤ vnorm circLight.pol := Real.sqrt_nonneg _
  nlinarith

/-- `C120_magnetic` for circular light. -/
example : ∃ B, circBeam.B 1 2 3 = .ok B ∧ B.length = 3 ∧
    (1 * vnorm B) ^ 2 = vnorm (circBeam.E 2 3) ^ 2 - ‖((circBeam.E 2 3).zipWith (fun e p => e * starRingEnd ℂ p) circLight.pol).sum‖ ^ 2 :=
  C120_magnetic one_pos circBeam_meant circBeam_meant.unit rfl 2 3

/-- The components of the polarisation get squared: a beam of circular light has a linearly polarised field, with the two components in
step everywhere, and the light of the plane field has them a quarter turn apart. -/
theorem C120_circular_fails : (∀ z r, ∃ e : ℝ, 0 < e ∧ circBeam.E z r = [(e : ℂ), -(e : ℂ), 0]) ∧
    ∃ e : ℝ, 0 < e ∧ circLight.E 1 1 = [(e : ℂ), (e : ℂ) * Complex.I, 0] := by
  have hs : 0 < Real.sqrt (1 / 2) := Real.sqrt_pos.2 (by norm_num)
  have hf : 0 < fieldScale 1 1 1 := Real.sqrt_pos.2 (by norm_num)
  constructor
  · intro z r
    have hw := Beam.w_pos (b := circBeam) one_pos z
    refine ⟨Real.sqrt (1 / 2) * (Real.sqrt (1 / 2) * fieldScale 1 1 1) * (circBeam.w0 / circBeam.w z * Real.exp (-r * r / circBeam.w z ^ 2)), ?_, ?_⟩
    · have : 0 < circBeam.w0 := one_pos
      positivity
    · unfold Beam.E
      generalize circBeam.w0 / circBeam.w z * Real.exp (-r * r / circBeam.w z ^ 2) = t
      simp only [circBeam, circLight, LightField.E, List.map_cons, List.map_nil, List.zipWith_cons_cons, List.zipWith_nil_left]
      generalize Real.sqrt (1 / 2) = s
      generalize fieldScale 1 1 1 = u
      push_cast
      congr 2
      · have : (s : ℂ) * Complex.I * (s * Complex.I * u) * t = s * s * u * t * (Complex.I * Complex.I) := by ring
        rw [this, Complex.I_mul_I]
        ring
      · simp
  · refine ⟨Real.sqrt (1 / 2) * fieldScale 1 1 1, by positivity, ?_⟩
    simp only [circLight, LightField.E, List.map_cons, List.map_nil]
    push_cast
    congr 2
    · ring
    · simp

/-- The hypotheses are met: at the Rayleigh range the beam is wider by the root of two, its fronts have radius 2. -/
example : axisBeam.w 1 = Real.sqrt 2 ∧ axisBeam.phase 1 = Real.pi / 4 ∧ axisBeam.radius 1 = .ok 2 ∧
    axisBeam.E 0 0 = axisLight.E 1 1 := by
  refine ⟨?_, (C120_phase (b := axisBeam) one_pos).2.1, ?_, C120_axis_partial axisBeam_meant (by simp [axisLight])⟩
  · have := (C120_width_partial (b := axisBeam) one_pos one_ne_zero).2.1
    simpa [axisBeam] using this
  · unfold Beam.radius
    rw [if_neg one_ne_zero]
    norm_num [axisBeam]

end AtomTk
