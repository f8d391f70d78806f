import Verif.Model.Ortho
import Verif.Props.Rounded
import Verif.Props.Strengths
import Mathlib.Data.Rat.Sqrt

/-!
# The orthogonality warning: C154
-/

namespace AtomTk.Strengths
open World

/-- A vector other than zero. -/
def Vec.Nonzero {K : Type} [Field K] (v : Vec K) : Prop := v.x ≠ 0 ∨ v.y ≠ 0 ∨ v.z ≠ 0

/-- Right angles. -/
def Vec.Perp {K : Type} [Field K] (v w : Vec K) : Prop := v.x * w.x + v.y * w.y + v.z * w.z = 0

theorem Vec.sum_sq_pos {v : Vec ℝ} (h : v.Nonzero) : 0 < v.x * v.x + v.y * v.y + v.z * v.z := by
  rcases h with h | h | h
  · nlinarith [mul_self_pos.2 h, mul_self_nonneg v.y, mul_self_nonneg v.z]
  · nlinarith [mul_self_pos.2 h, mul_self_nonneg v.x, mul_self_nonneg v.z]
  · nlinarith [mul_self_pos.2 h, mul_self_nonneg v.y, mul_self_nonneg v.x]

/-- C154 in exact arithmetic: the warning is given exactly where polarization and wave vector are not at right angles.  Missing: floats
(`C154_fails`). -/
theorem C154_exact_partial {eps k : Vec ℝ} (he : eps.Nonzero) (hk : k.Nonzero) : Vec.Warns id Real.sqrt eps k ↔ ¬eps.Perp k := by
  have h1 : 0 < Real.sqrt (eps.x * eps.x + eps.y * eps.y + eps.z * eps.z) := Real.sqrt_pos.2 (Vec.sum_sq_pos he)
  have h2 : 0 < Real.sqrt (k.x * k.x + k.y * k.y + k.z * k.z) := Real.sqrt_pos.2 (Vec.sum_sq_pos hk)
  unfold Vec.Warns Vec.Perp Vec.unitR Vec.dotR
  simp only [id]
  set a := Real.sqrt (eps.x * eps.x + eps.y * eps.y + eps.z * eps.z)
  set b := Real.sqrt (k.x * k.x + k.y * k.y + k.z * k.z)
  have e : eps.x / a * (k.x / b) + eps.y / a * (k.y / b) + eps.z / a * (k.z / b) = (eps.x * k.x + eps.y * k.y + eps.z * k.z) / (a * b) := by
    field_simp
  rw [e, Ne, div_eq_zero_iff]
  have : a * b ≠ 0 := (mul_pos h1 h2).ne'
  tauto

/-- The vectors of the warning are those of the functions themselves. -/
theorem C154_vectors (eps k : V3) : (eps.vec.unitR id Real.sqrt).dotR id (k.vec.unitR id Real.sqrt) = eps.unit.dot k.unit := by
  have e : ∀ v : V3, v.vec.unitR id Real.sqrt = v.unit.vec := by
    intro v
    unfold Vec.unitR Vec.dotR V3.unit V3.norm V3.vec
    simp only [id, pow_two]
  rw [e, e]
  rfl

/-- C154: with any rounding that keeps zero, two vectors that have no axis in common never warn. -/
theorem C154_axes {K : Type} [Field K] {rnd sq : K → K} (h0 : rnd 0 = 0) {eps k : Vec K} (hx : eps.x = 0 ∨ k.x = 0) (hy : eps.y = 0 ∨ k.y = 0)
    (hz : eps.z = 0 ∨ k.z = 0) : ¬Vec.Warns rnd sq eps k := by
  have p : ∀ {a b s t : K}, a = 0 ∨ b = 0 → rnd (rnd (a / s) * rnd (b / t)) = 0 := by
    intro a b s t h
    rcases h with rfl | rfl <;> simp [h0]
  unfold Vec.Warns Vec.dotR Vec.unitR
  rw [p hx, p hy, p hz]
  simp [h0]

/-- C154: with any rounding that commutes with the sign, turning a vector of a coordinate plane by a right angle in the plane never warns. -/
theorem C154_turned {K : Type} [Field K] {rnd sq : K → K} (hn : ∀ x, rnd (-x) = -rnd x) (h0 : rnd 0 = 0) (a b : K) :
    ¬Vec.Warns rnd sq ⟨a, b, 0⟩ ⟨-b, a, 0⟩ := by
  unfold Vec.Warns Vec.dotR Vec.unitR Vec.dotR
  simp only [neg_mul_neg, mul_zero, h0, zero_div, add_zero]
  rw [add_comm (rnd (b * b)) (rnd (a * a)), neg_div, hn]
  simp only [mul_neg, hn, ne_eq, not_not]
  rw [mul_comm (rnd (b / _)) (rnd (a / _)), neg_add_cancel, h0, h0]

/-! ## Rounding errors -/

/-- `rnd` has relative error at most `u`. -/
def RelErr (rnd : ℚ → ℚ) (u : ℚ) : Prop := ∀ x, |rnd x - x| ≤ u * |x|

theorem RelErr.nonneg {rnd : ℚ → ℚ} {u : ℚ} (h : RelErr rnd u) : 0 ≤ u := by
  have := (abs_nonneg _).trans (h 1)
  simpa using this

theorem RelErr.factor {rnd : ℚ → ℚ} {u : ℚ} (h : RelErr rnd u) (x : ℚ) : ∃ d, |d| ≤ u ∧ rnd x = x * (1 + d) := by
  by_cases hx : x = 0
  · refine ⟨0, by simpa using h.nonneg, ?_⟩
    have := h x
    rw [hx] at this ⊢
    simpa using this
  · refine ⟨(rnd x - x) / x, ?_, by field_simp; ring⟩
    rw [abs_div, div_le_iff₀ (abs_pos.2 hx)]
    exact h x

theorem RelErr.zero {rnd : ℚ → ℚ} {u : ℚ} (h : RelErr rnd u) (hu : u < 1) {x : ℚ} (hx : rnd x = 0) : x = 0 := by
  have := h x
  rw [hx, zero_sub, abs_neg] at this
  by_contra hne
  have := abs_pos.2 hne
  nlinarith

/-- The product of three factors near one. -/
theorem near_three {u a b c : ℚ} (ha : |a| ≤ u) (hb : |b| ≤ u) (hc : |c| ≤ u) : |(1 + a) * (1 + b) * (1 + c) - 1| ≤ (1 + u) ^ 3 - 1 := by
  have hu : 0 ≤ u := (abs_nonneg a).trans ha
  have e : (1 + a) * (1 + b) * (1 + c) - 1 = a + b + c + a * b + a * c + b * c + a * b * c := by ring
  have e' : (1 + u) ^ 3 - 1 = u + u + u + u * u + u * u + u * u + u * u * u := by ring
  have m2 : ∀ {x y : ℚ}, |x| ≤ u → |y| ≤ u → |x * y| ≤ u * u := fun hx hy => by
    rw [abs_mul]; exact mul_le_mul hx hy (abs_nonneg _) hu
  have m3 : |a * b * c| ≤ u * u * u := by
    rw [abs_mul]; exact mul_le_mul (m2 ha hb) hc (abs_nonneg _) (mul_nonneg hu hu)
  rw [e, e']
  have := m2 ha hb; have := m2 ha hc; have := m2 hb hc
  refine (abs_add_le _ _).trans (add_le_add ((abs_add_le _ _).trans (add_le_add ((abs_add_le _ _).trans (add_le_add ((abs_add_le _ _).trans
    (add_le_add ((abs_add_le _ _).trans (add_le_add ((abs_add_le _ _).trans (add_le_add ha hb)) hc)) ?_)) ?_)) ?_)) m3) <;> assumption

/-- C154 in floats: where no warning is given, the vectors are at right angles up to the rounding of four operations. -/
theorem C154_silent {rnd sq : ℚ → ℚ} {u : ℚ} (hr : RelErr rnd u) (hu : u < 1) {eps k : Vec ℚ} (he : sq (eps.dotR rnd eps) ≠ 0)
    (hk : sq (k.dotR rnd k) ≠ 0) (h : ¬Vec.Warns rnd sq eps k) :
    |eps.x * k.x + eps.y * k.y + eps.z * k.z| ≤ ((1 + u) ^ 4 - 1) * (|eps.x * k.x| + |eps.y * k.y| + |eps.z * k.z|) := by
  set n := sq (eps.dotR rnd eps) with hn
  set m := sq (k.dotR rnd k) with hm
  have hnm : n * m ≠ 0 := mul_ne_zero he hk
  have hu0 := hr.nonneg
  have prod : ∀ a b : ℚ, ∃ d, |d| ≤ (1 + u) ^ 3 - 1 ∧ rnd (rnd (a / n) * rnd (b / m)) = a * b / (n * m) * (1 + d) := by
    intro a b
    obtain ⟨d1, h1, e1⟩ := hr.factor (a / n)
    obtain ⟨d2, h2, e2⟩ := hr.factor (b / m)
    obtain ⟨d3, h3, e3⟩ := hr.factor (rnd (a / n) * rnd (b / m))
    refine ⟨(1 + d1) * (1 + d2) * (1 + d3) - 1, near_three h1 h2 h3, ?_⟩
    rw [e3, e1, e2]
    field_simp
    ring
  have h' : rnd (rnd (rnd (rnd (eps.x / n) * rnd (k.x / m)) + rnd (rnd (eps.y / n) * rnd (k.y / m))) + rnd (rnd (eps.z / n) * rnd (k.z / m))) = 0 :=
    not_not.1 h
  have h0 := hr.zero hu h'
  obtain ⟨d1, g1, f1⟩ := prod eps.x k.x
  obtain ⟨d2, g2, f2⟩ := prod eps.y k.y
  obtain ⟨d3, g3, f3⟩ := prod eps.z k.z
  rw [f1, f2, f3] at h0
  obtain ⟨d, g, f⟩ := hr.factor (eps.x * k.x / (n * m) * (1 + d1) + eps.y * k.y / (n * m) * (1 + d2))
  rw [f] at h0
  set X := eps.x * k.x
  set Y := eps.y * k.y
  set Z := eps.z * k.z
  have h1 : (X * (1 + d1) + Y * (1 + d2)) * (1 + d) + Z * (1 + d3) = 0 := by
    have : ((X * (1 + d1) + Y * (1 + d2)) * (1 + d) + Z * (1 + d3)) / (n * m) = 0 := by
      rw [← h0]; ring
    exact (div_eq_zero_iff.1 this).resolve_right hnm
  have h2 : X + Y + Z = -(X * ((1 + d1) * (1 + d) - 1) + Y * ((1 + d2) * (1 + d) - 1) + Z * d3) := by linear_combination h1
  have hg : 0 ≤ (1 + u) ^ 3 - 1 := (abs_nonneg _).trans g1
  have k1 : ∀ {c : ℚ}, |c| ≤ (1 + u) ^ 3 - 1 → |(1 + c) * (1 + d) - 1| ≤ (1 + u) ^ 4 - 1 := by
    intro c hc
    have e : (1 + c) * (1 + d) - 1 = c + d + c * d := by ring
    have e' : (1 + u) ^ 4 - 1 = ((1 + u) ^ 3 - 1) + u + ((1 + u) ^ 3 - 1) * u := by ring
    rw [e, e']
    refine (abs_add_le _ _).trans (add_le_add ((abs_add_le _ _).trans (add_le_add hc g)) ?_)
    rw [abs_mul]
    exact mul_le_mul hc g (abs_nonneg _) hg
  have k3 : |d3| ≤ (1 + u) ^ 4 - 1 := by
    refine g3.trans ?_
    have : (1 + u) ^ 4 - 1 = ((1 + u) ^ 3 - 1) + (1 + u) ^ 3 * u := by ring
    rw [this]
    have : 0 ≤ (1 + u) ^ 3 * u := by positivity
    linarith
  rw [h2, abs_neg]
  have t : ∀ {A c : ℚ}, |c| ≤ (1 + u) ^ 4 - 1 → |A * c| ≤ ((1 + u) ^ 4 - 1) * |A| := by
    intro A c hc
    rw [abs_mul, mul_comm]
    exact mul_le_mul_of_nonneg_right hc (abs_nonneg _)
  calc |X * ((1 + d1) * (1 + d) - 1) + Y * ((1 + d2) * (1 + d) - 1) + Z * d3|
      ≤ |X * ((1 + d1) * (1 + d) - 1)| + |Y * ((1 + d2) * (1 + d) - 1)| + |Z * d3| :=
        (abs_add_le _ _).trans (add_le_add (abs_add_le _ _) le_rfl)
    _ ≤ ((1 + u) ^ 4 - 1) * |X| + ((1 + u) ^ 4 - 1) * |Y| + ((1 + u) ^ 4 - 1) * |Z| := add_le_add (add_le_add (t (k1 g1)) (t (k1 g2))) (t k3)
    _ = _ := by ring

/-! ## Python floats -/

/-- A square root of floats that is exact where it can be. -/
def SqrtOk (sq : ℚ → ℚ) : Prop := ∀ x, 0 ≤ x → dbl x = x → sq (x * x) = x

/-- The components are floats. -/
def Vec.Floats (v : Vec ℚ) : Prop := dbl v.x = v.x ∧ dbl v.y = v.y ∧ dbl v.z = v.z

/-- The full claim C154: in floats the warning is given exactly where polarization and wave vector are not at right angles. -/
def C154_full : Prop := ∀ (sq : ℚ → ℚ) (eps k : Vec ℚ), SqrtOk sq → eps.Floats → k.Floats → eps.Nonzero → k.Nonzero →
  (Vec.Warns dbl sq eps k ↔ ¬eps.Perp k)

/-- C154 fails in floats: (2, 3, 6) and (3, -6, 2) are at right angles, their lengths are 7, and the warning is given. -/
theorem C154_false_alarm {sq : ℚ → ℚ} (h : SqrtOk sq) : Vec.Warns dbl sq ⟨2, 3, 6⟩ ⟨3, -6, 2⟩ := by
  have h7 : sq 49 = 7 := by
    have := h 7 (by norm_num) (by decide +kernel)
    norm_num at this
    exact this
  have e1 : (⟨2, 3, 6⟩ : Vec ℚ).dotR dbl ⟨2, 3, 6⟩ = 49 := by decide +kernel
  have e2 : (⟨3, -6, 2⟩ : Vec ℚ).dotR dbl ⟨3, -6, 2⟩ = 49 := by decide +kernel
  unfold Vec.Warns Vec.unitR
  rw [e1, e2, h7]
  decide +kernel

theorem C154_fails : ¬C154_full := by
  intro h
  have hs : SqrtOk Rat.sqrt := by
    intro x hx _
    show Rat.sqrt (x * x) = x
    rw [Rat.sqrt_eq, abs_of_nonneg hx]
  have := (h _ ⟨2, 3, 6⟩ ⟨3, -6, 2⟩ hs (by unfold Vec.Floats; decide +kernel) (by unfold Vec.Floats; decide +kernel) (.inl (by norm_num))
    (.inl (by norm_num))).1 (C154_false_alarm hs)
  exact this (by norm_num [Vec.Perp])

/-- Floats round with a small relative error. -/
theorem dbl_relErr : RelErr dbl ((2 : ℚ) ^ (-53 : Int)) := fun x => C83_dbl x

example : ¬Vec.Warns dbl Rat.sqrt ⟨0, 3, 4⟩ ⟨5, 0, 0⟩ :=
  C154_axes (by decide +kernel) (.inl rfl) (.inr rfl) (.inr rfl)

/-- `C154_silent` for light in a plane: (3, 4, 0) and (-4, 3, 0). -/
example : ¬Vec.Warns dbl Rat.sqrt ⟨3, 4, 0⟩ ⟨-4, 3, 0⟩ ∧ Rat.sqrt ((⟨3, 4, 0⟩ : Vec ℚ).dotR dbl ⟨3, 4, 0⟩) ≠ 0 := by
  unfold Vec.Warns
  decide +kernel

example : Vec.Warns id Real.sqrt ⟨1, 0, 0⟩ ⟨1, 1, 0⟩ :=
  (C154_exact_partial (.inl one_ne_zero) (.inl one_ne_zero)).2 (by norm_num [Vec.Perp])

end AtomTk.Strengths
