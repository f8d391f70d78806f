import Verif.Model.Thermal
import Verif.Props.Lineshape
import Mathlib.Analysis.SpecialFunctions.ImproperIntegrals
import Mathlib.Analysis.SpecialFunctions.Gaussian.GaussianIntegral
import Mathlib.Analysis.Real.Pi.Bounds

/-!
# Thermal lines: C143, C144
-/

namespace AtomTk

open MeasureTheory

/-! ## C143: the Doppler width -/

/-- The intensity at `x` of a line at `x0`, of height `a`, broadened by the motion of atoms of mass `m` at temperature `T`: an atom
moving with velocity `v` along the line of sight absorbs at `x0 * (1 + v / c)`, and the share of atoms with that velocity goes with
the Boltzmann factor of the kinetic energy `m * v ^ 2 / 2`. -/
noncomputable def doppler (kB T m c x0 a x : ℝ) : ℝ := a * Real.exp (-(m * (c * (x / x0 - 1)) ^ 2 / 2) / (kB * T))

/-- The full claim: the thermal line shape is the Doppler profile. -/
def C143_full : Prop := ∀ (kB T m c x0 : ℝ) (k : Kw), 0 < kB → 0 < T → 0 < m → 0 < c → 0 < x0 → ∀ x,
  (thermalGaussianOf kB T m c).shape x x0 k = some (doppler kB T m c x0 (k.ampl.getD 1) x)

theorem thermalSigma_pos {kB T m c : ℝ} (hk : 0 < kB) (hT : 0 < T) (hm : 0 < m) (hc : 0 < c) : 0 < thermalSigma kB T m c :=
  Real.sqrt_pos.2 (by positivity)

theorem thermalSigma_sq {kB T m c : ℝ} (hk : 0 < kB) (hT : 0 < T) (hm : 0 < m) (hc : 0 < c) :
    thermalSigma kB T m c ^ 2 = 8 * kB * T / (m * c ^ 2) := Real.sq_sqrt (by positivity)

/-- C143, what holds: the line drawn is a Doppler profile, namely the one of eight times the temperature, at every point, for every
temperature, mass and line. -/
theorem C143_hot_partial {kB T m c x0 : ℝ} (k : Kw) (hk : 0 < kB) (hT : 0 < T) (hm : 0 < m) (hc : 0 < c) (h0 : 0 < x0) (x : ℝ) :
    (thermalGaussianOf kB T m c).shape x x0 k = some (doppler kB (8 * T) m c x0 (k.ampl.getD 1) x) := by
  have hs := thermalSigma_pos hk hT hm hc
  show gaussian x x0 (thermalSigma kB T m c * x0) _ = _
  rw [gaussian_of (by positivity), mul_pow, thermalSigma_sq hk hT hm hc, doppler]
  congr 3
  field_simp

/-- The same for `ThermalLineShape` where it is Gaussian. -/
theorem C143_hot_thermal_partial {kB T m c x0 gamma : ℝ} (v : ℝ → ℝ → ℝ → ℝ) (k : Kw) (hk : 0 < kB) (hT : 0 < T) (hm : 0 < m)
    (hc : 0 < c) (h0 : 0 < x0) (hg : 0 < gamma) (hr : 25 * gamma < thermalSigma kB T m c * x0) (x : ℝ) :
    thermalOf v kB T m c gamma x x0 k = .ok (some (doppler kB (8 * T) m c x0 (k.ampl.getD 1) x)) := by
  have hs := mul_pos (thermalSigma_pos hk hT hm hc) h0
  have e := C143_hot_partial k hk hT hm hc h0 x
  change gaussian x x0 (thermalSigma kB T m c * x0) _ = _ at e
  unfold thermalOf thermalShape
  have h1 : ¬gamma / (thermalSigma kB T m c * x0) > 25 := by
    rw [gt_iff_lt, lt_div_iff₀ hs]; intro h; nlinarith
  have h2 : thermalSigma kB T m c * x0 / gamma > 25 := by rw [gt_iff_lt, lt_div_iff₀ hg]; exact hr
  rw [if_neg hs.ne', if_neg h1, if_neg hg.ne', if_pos h2, e]

/-- The half width at half maximum of the Doppler profile. -/
noncomputable def dopplerHalf (kB T m c x0 : ℝ) : ℝ := x0 * Real.sqrt (2 * Real.log 2 * kB * T / (m * c ^ 2))

/-- `dopplerHalf` is the half width of `doppler`. -/
theorem doppler_bell {kB T m c x0 a : ℝ} (hk : 0 < kB) (hT : 0 < T) (hm : 0 < m) (hc : 0 < c) (h0 : 0 < x0) (ha : 0 < a) :
    Bell (fun x => some (doppler kB T m c x0 a x)) x0 a (dopplerHalf kB T m c x0) := by
  have hq : 0 < kB * T / (m * c ^ 2) := by positivity
  have hlog : 0 < Real.log 2 := Real.log_pos (by norm_num)
  have hb := C73_gaussian (x0 := x0) (g := x0 * Real.sqrt (kB * T / (m * c ^ 2))) (a := a)
    (mul_pos h0 (Real.sqrt_pos.2 hq)).ne' ha
  have e1 : (fun x => gaussian x x0 (x0 * Real.sqrt (kB * T / (m * c ^ 2))) a) = fun x => some (doppler kB T m c x0 a x) := by
    funext x
    rw [gaussian_of (mul_pos h0 (Real.sqrt_pos.2 hq)).ne', mul_pow, Real.sq_sqrt hq.le, doppler]
    congr 3
    field_simp
  have e2 : Real.sqrt (2 * Real.log 2) * (x0 * Real.sqrt (kB * T / (m * c ^ 2))) = dopplerHalf kB T m c x0 := by
    rw [dopplerHalf, show 2 * Real.log 2 * kB * T / (m * c ^ 2) = 2 * Real.log 2 * (kB * T / (m * c ^ 2)) by ring,
      Real.sqrt_mul (show (0 : ℝ) ≤ 2 * Real.log 2 by positivity) (kB * T / (m * c ^ 2))]
    ring
  rwa [e1, e2] at hb

/-- C143: the line is too wide by the factor `sqrt 8`, for every temperature, mass and line. -/
theorem C143_wide {kB T m c x0 : ℝ} (k : Kw) (hk : 0 < kB) (hT : 0 < T) (hm : 0 < m) (hc : 0 < c) (h0 : 0 < x0)
    (ha : 0 < k.ampl.getD 1) :
    Bell (fun x => (thermalGaussianOf kB T m c).shape x x0 k) x0 (k.ampl.getD 1) (Real.sqrt 8 * dopplerHalf kB T m c x0) := by
  have e : Real.sqrt 8 * dopplerHalf kB T m c x0 = dopplerHalf kB (8 * T) m c x0 := by
    rw [dopplerHalf, dopplerHalf, show 2 * Real.log 2 * kB * (8 * T) / (m * c ^ 2) = 8 * (2 * Real.log 2 * kB * T / (m * c ^ 2)) by ring,
      Real.sqrt_mul (show (0 : ℝ) ≤ 8 by norm_num) (2 * Real.log 2 * kB * T / (m * c ^ 2))]
    ring
  rw [e]
  have := doppler_bell (T := 8 * T) hk (by positivity) hm hc h0 ha
  simp only [C143_hot_partial k hk hT hm hc h0]
  exact this

/-- C143: away from the centre the line is everywhere too high. -/
theorem C143_high {kB T m c x0 : ℝ} (k : Kw) (hk : 0 < kB) (hT : 0 < T) (hm : 0 < m) (hc : 0 < c) (h0 : 0 < x0)
    (ha : 0 < k.ampl.getD 1) {x : ℝ} (hx : x ≠ x0) :
    ∃ y, (thermalGaussianOf kB T m c).shape x x0 k = some y ∧ doppler kB T m c x0 (k.ampl.getD 1) x < y := by
  refine ⟨_, C143_hot_partial k hk hT hm hc h0 x, ?_⟩
  unfold doppler
  apply mul_lt_mul_of_pos_left _ ha
  apply Real.exp_lt_exp.2
  have hx' : x / x0 - 1 ≠ 0 := by
    intro h
    apply hx
    have : x / x0 = 1 := by linarith
    rwa [div_eq_one_iff_eq h0.ne'] at this
  have hp : 0 < m * (c * (x / x0 - 1)) ^ 2 / 2 := by positivity
  rw [neg_div, neg_div, neg_lt_neg_iff]
  apply div_lt_div_of_pos_left hp (by positivity)
  nlinarith [mul_pos hk hT]

/-- C143 fails: unit constants, at twice the frequency of the line. -/
theorem C143_fails : ¬C143_full := by
  intro h
  obtain ⟨y, hy, hlt⟩ := C143_high (kB := 1) (T := 1) (m := 1) (c := 1) (x0 := 1) {} one_pos one_pos one_pos one_pos one_pos
    (by norm_num [Option.getD]) (x := 2) (by norm_num)
  rw [h 1 1 1 1 1 {} one_pos one_pos one_pos one_pos one_pos 2] at hy
  exact hlt.ne (Option.some.inj hy)

/-- Ytterbium-like: mass 171 at 300 K in units with `kB = 1`. -/
example : Bell (fun x => (thermalGaussianOf 1 300 171 1000).shape x 500 {}) 500 1 (Real.sqrt 8 * dopplerHalf 1 300 171 1000 500) :=
  C143_wide {} (by norm_num) (by norm_num) (by norm_num) (by norm_num) (by norm_num) (by norm_num [Option.getD])

/-! ## C144: the height of a thermal line -/

/-- What `scipy.special.voigt_profile(x, s, g)` is documented to be, for `s, g > 0`: the convolution of the normal distribution of
standard deviation `s` with the Cauchy distribution of half width `g`, both of area 1. -/
noncomputable def voigtProfile (x s g : ℝ) : ℝ :=
  ∫ t : ℝ, (Real.exp (-t ^ 2 / (2 * s ^ 2)) / (s * Real.sqrt (2 * Real.pi))) * (g / Real.pi / ((x - t) ^ 2 + g ^ 2))

theorem cauchy_eq {g : ℝ} (hg : 0 < g) (u : ℝ) : g / Real.pi / (u ^ 2 + g ^ 2) = (1 / (Real.pi * g)) * (1 + (u / g) ^ 2)⁻¹ := by
  have : 0 < u ^ 2 + g ^ 2 := by positivity
  have hpi := Real.pi_pos
  have h2 : 1 + (u / g) ^ 2 = (u ^ 2 + g ^ 2) / g ^ 2 := by field_simp; ring
  rw [h2, inv_div]
  field_simp

theorem cauchy_integrable (x : ℝ) {g : ℝ} (hg : 0 < g) : Integrable fun t : ℝ => g / Real.pi / ((x - t) ^ 2 + g ^ 2) := by
  have h1 : Integrable fun u : ℝ => g / Real.pi / (u ^ 2 + g ^ 2) := by
    simp only [cauchy_eq hg]
    exact (integrable_inv_one_add_sq.comp_div hg.ne').const_mul _
  exact h1.comp_sub_left x

/-- The Cauchy distribution has area 1. -/
theorem cauchy_area (x : ℝ) {g : ℝ} (hg : 0 < g) : ∫ t : ℝ, g / Real.pi / ((x - t) ^ 2 + g ^ 2) = 1 := by
  have hpi := Real.pi_pos
  rw [integral_sub_left_eq_self (fun u : ℝ => g / Real.pi / (u ^ 2 + g ^ 2)) volume x]
  simp only [cauchy_eq hg]
  rw [integral_const_mul, Measure.integral_comp_div (fun u : ℝ => (1 + u ^ 2)⁻¹) g, integral_univ_inv_one_add_sq, abs_of_pos hg,
    smul_eq_mul]
  field_simp

/-- A Voigt profile is nowhere higher than the normal distribution it is made from. -/
theorem voigtProfile_le (x : ℝ) {s g : ℝ} (hs : 0 < s) (hg : 0 < g) : voigtProfile x s g ≤ 1 / (s * Real.sqrt (2 * Real.pi)) := by
  have hpi := Real.pi_pos
  have hn : 0 < s * Real.sqrt (2 * Real.pi) := mul_pos hs (Real.sqrt_pos.2 (by positivity))
  have key : voigtProfile x s g ≤ ∫ t : ℝ, (1 / (s * Real.sqrt (2 * Real.pi))) * (g / Real.pi / ((x - t) ^ 2 + g ^ 2)) := by
    refine integral_mono_of_nonneg (Filter.Eventually.of_forall fun t => ?_) ((cauchy_integrable x hg).const_mul _)
      (Filter.Eventually.of_forall fun t => ?_)
    · show (0 : ℝ) ≤ _
      positivity
    · show _ * _ ≤ _ * _
      apply mul_le_mul_of_nonneg_right _ (by positivity)
      rw [div_le_div_iff_of_pos_right hn, Real.exp_le_one_iff]
      exact div_nonpos_of_nonpos_of_nonneg (by nlinarith [sq_nonneg t]) (by positivity)
  rwa [integral_const_mul, cauchy_area x hg, mul_one] at key

/-- The full claim: a thermal line with positive width and linewidth has the asked-for height at its centre. -/
def C144_full : Prop := ∀ (sigma gamma x0 : ℝ) (k : Kw), 0 < sigma → 0 < gamma → 0 < x0 → 0 < k.ampl.getD 1 →
  thermalShape voigtProfile sigma gamma x0 x0 k = .ok (some (k.ampl.getD 1))

/-- C144, what holds: the height is right when one of the two widths is more than 25 times the other, whatever is used for the
Voigt profile. -/
theorem C144_limits_partial {v : ℝ → ℝ → ℝ → ℝ} {sigma gamma x0 : ℝ} {k : Kw} (hs : 0 < sigma) (hg : 0 < gamma) (h0 : 0 < x0)
    (hr : 25 * (sigma * x0) < gamma ∨ 25 * gamma < sigma * x0) :
    thermalShape v sigma gamma x0 x0 k = .ok (some (k.ampl.getD 1)) := by
  have hs0 := mul_pos hs h0
  unfold thermalShape
  rw [if_neg hs0.ne']
  rcases hr with hr | hr
  · rw [if_pos (by rw [gt_iff_lt, lt_div_iff₀ hs0]; exact hr), lorentzian_of hg.ne']
    simp [hg.ne']
  · have h1 : ¬gamma / (sigma * x0) > 25 := by rw [gt_iff_lt, lt_div_iff₀ hs0]; intro h; nlinarith
    rw [if_neg h1, if_neg hg.ne', if_pos (by rw [gt_iff_lt, lt_div_iff₀ hg]; exact hr), gaussian_of hs0.ne']
    simp

/-- C144: in between, the line is nowhere higher than `ampl` divided by `sqrt (2 pi)` times the thermal width. -/
theorem C144_low {sigma gamma x0 : ℝ} {k : Kw} (hs : 0 < sigma) (hg : 0 < gamma) (h0 : 0 < x0) (ha : 0 < k.ampl.getD 1)
    (h1 : gamma ≤ 25 * (sigma * x0)) (h2 : sigma * x0 ≤ 25 * gamma) (x : ℝ) :
    ∃ y, thermalShape voigtProfile sigma gamma x x0 k = .ok (some y) ∧ y ≤ k.ampl.getD 1 / (sigma * x0 * Real.sqrt (2 * Real.pi)) := by
  have hs0 := mul_pos hs h0
  have e1 : ¬gamma / (sigma * x0) > 25 := by rw [gt_iff_lt, not_lt, div_le_iff₀ hs0]; exact h1
  have e2 : ¬sigma * x0 / gamma > 25 := by rw [gt_iff_lt, not_lt, div_le_iff₀ hg]; exact h2
  refine ⟨_, by unfold thermalShape; rw [if_neg hs0.ne', if_neg e1, if_neg hg.ne', if_neg e2], ?_⟩
  rw [div_eq_mul_one_div]
  exact mul_le_mul_of_nonneg_left (voigtProfile_le _ hs0 hg) ha.le

theorem two_lt_sqrt_two_pi : 2 < Real.sqrt (2 * Real.pi) := by
  apply Real.lt_sqrt_of_sq_lt
  nlinarith [Real.pi_gt_three]

/-- C144: so a line at least 1 wide (one unit of the axis) and in between is everywhere less than half as high as asked for, and
about `1 / sigma` of it when the axis is in small units. -/
theorem C144_half {sigma gamma x0 : ℝ} {k : Kw} (hs : 0 < sigma) (hg : 0 < gamma) (h0 : 0 < x0) (ha : 0 < k.ampl.getD 1)
    (h1 : gamma ≤ 25 * (sigma * x0)) (h2 : sigma * x0 ≤ 25 * gamma) (x : ℝ) :
    ∃ y, thermalShape voigtProfile sigma gamma x x0 k = .ok (some y) ∧ y < k.ampl.getD 1 / (2 * (sigma * x0)) := by
  obtain ⟨y, hy, hle⟩ := C144_low hs hg h0 ha h1 h2 x
  refine ⟨y, hy, hle.trans_lt ?_⟩
  have hs0 := mul_pos hs h0
  apply div_lt_div_of_pos_left ha (by positivity)
  nlinarith [two_lt_sqrt_two_pi]

/-- C144: at the border of the Gaussian regime the height drops: just above it is `ampl` everywhere, at it less than `ampl / 50` for
every linewidth of at least one unit. -/
theorem C144_jump {gamma : ℝ} {k : Kw} (hg : 1 ≤ gamma) (ha : 0 < k.ampl.getD 1) :
    (∀ s, 25 * gamma < s → thermalShape voigtProfile s gamma 1 1 k = .ok (some (k.ampl.getD 1))) ∧
      ∃ y, thermalShape voigtProfile (25 * gamma) gamma 1 1 k = .ok (some y) ∧ y < k.ampl.getD 1 / 50 := by
  have hg0 : 0 < gamma := by linarith
  refine ⟨fun s hs => C144_limits_partial (by linarith) hg0 one_pos (.inr (by linarith)), ?_⟩
  obtain ⟨y, hy, hlt⟩ := C144_half (sigma := 25 * gamma) (x0 := 1) (by positivity) hg0 one_pos ha (by nlinarith) (by linarith) 1
  refine ⟨y, hy, hlt.trans_le ?_⟩
  apply div_le_div_of_nonneg_left ha.le (by norm_num)
  nlinarith

/-- C144 fails: width and linewidth of one unit. -/
theorem C144_fails : ¬C144_full := by
  intro h
  have ha : (0 : ℝ) < ({} : Kw).ampl.getD 1 := by norm_num [Option.getD]
  obtain ⟨y, hy, hlt⟩ := C144_half (sigma := 1) (gamma := 1) (x0 := 1) (k := {}) one_pos one_pos one_pos ha (by norm_num)
    (by norm_num) 1
  rw [h 1 1 1 {} one_pos one_pos one_pos ha] at hy
  have e := Option.some.inj (Except.ok.inj hy)
  rw [← e] at hlt
  norm_num [Option.getD] at hlt

/-- A linewidth of 100 on a thermal width of 2, and the other way round. -/
example : thermalShape voigtProfile 2 100 1 1 {} = .ok (some 1) ∧ thermalShape voigtProfile 100 2 1 1 {} = .ok (some 1) :=
  ⟨C144_limits_partial (by norm_num) (by norm_num) one_pos (.inl (by norm_num)),
    C144_limits_partial (by norm_num) (by norm_num) one_pos (.inr (by norm_num))⟩

end AtomTk
