import Verif.Model.Lineshape
import Mathlib.Tactic.Linarith
import Mathlib.Tactic.Positivity
import Mathlib.Tactic.FieldSimp
import Mathlib.Tactic.Ring
import Mathlib.Tactic.NormNum
import Mathlib.Tactic.IntervalCases
import Mathlib.Analysis.SpecialFunctions.Pow.Real
import Mathlib.Topology.Algebra.Order.Floor
import Mathlib.Analysis.SpecialFunctions.Sqrt
import Mathlib.Analysis.Complex.ExponentialBounds

/-!
# Line shapes: C63 to C66, C73 to C75
-/

namespace AtomTk

/-! ## C63 -/

/-- What is expected of a bell-shaped line with centre `x0`, height `a > 0` and half width at half maximum `h`. -/
structure Bell (f : ℝ → Elt) (x0 a h : ℝ) : Prop where
  /-- the value at the centre -/
  top : f x0 = some a
  /-- the value is half of it exactly at the distance `h` -/
  half : ∀ x, f x = some (a / 2) ↔ x = x0 - h ∨ x = x0 + h
  symm : ∀ u, f (x0 - u) = f (x0 + u)
  /-- everywhere a number, positive and at most `a` -/
  range : ∀ x, ∃ y, f x = some y ∧ 0 < y ∧ y ≤ a
  /-- strictly decreasing away from the centre -/
  mono : ∀ x x', |x - x0| < |x' - x0| → ∃ y y', f x = some y ∧ f x' = some y' ∧ y' < y

theorem lor_den {x x0 g : ℝ} (hg : g ≠ 0) : 0 < 4 * (x - x0) ^ 2 + g ^ 2 := by
  have : 0 < g ^ 2 := by positivity
  nlinarith [sq_nonneg (x - x0)]

theorem lorentzian_of {x x0 g a : ℝ} (hg : g ≠ 0) : lorentzian x x0 g a = some (a * g ^ 2 / (4 * (x - x0) ^ 2 + g ^ 2)) := by
  rw [lorentzian, if_neg (lor_den hg).ne']

/-- C63: the Lorentzian, for every centre, width other than zero, and positive height. -/
theorem C63_lorentzian {x0 g a : ℝ} (hg : g ≠ 0) (ha : 0 < a) : Bell (fun x => lorentzian x x0 g a) x0 a (g / 2) := by
  have hg2 : 0 < g ^ 2 := by positivity
  refine ⟨?_, ?_, ?_, ?_, ?_⟩
  · show lorentzian x0 x0 g a = _
    rw [lorentzian_of hg]
    congr 1
    rw [sub_self]
    field_simp
    ring
  · intro x
    show lorentzian x x0 g a = _ ↔ _
    rw [lorentzian_of hg, Option.some.injEq, div_eq_div_iff (lor_den hg).ne' (by norm_num)]
    constructor
    · intro h
      have h1 : (x - x0 - g / 2) * (x - x0 + g / 2) = 0 := by
        have : a * (g ^ 2 - 4 * (x - x0) ^ 2) = 0 := by linarith
        rcases mul_eq_zero.1 this with h | h
        · exact absurd h ha.ne'
        · linarith
      rcases mul_eq_zero.1 h1 with h | h
      · right; linarith
      · left; linarith
    · rintro (rfl | rfl) <;> ring
  · intro u
    show lorentzian _ _ _ _ = lorentzian _ _ _ _
    rw [lorentzian_of hg, lorentzian_of hg]
    congr 2
    ring
  · intro x
    refine ⟨_, lorentzian_of hg, div_pos (mul_pos ha hg2) (lor_den hg), ?_⟩
    rw [div_le_iff₀ (lor_den hg)]
    nlinarith [sq_nonneg (x - x0), mul_nonneg ha.le (sq_nonneg (x - x0))]
  · intro x x' h
    refine ⟨_, _, lorentzian_of hg, lorentzian_of hg, ?_⟩
    have := sq_lt_sq.2 h
    apply div_lt_div_of_pos_left (mul_pos ha hg2) (lor_den hg)
    linarith

/-- C63 for `LorentzianLineShape`, with its natural linewidth added. -/
theorem C63_shape {x0 g : ℝ} {k : Kw} (hg : g + k.aCoeff.getD 0 ≠ 0) (ha : 0 < k.ampl.getD 1) :
    Bell (fun x => (lorentzianShape g).shape x x0 k) x0 (k.ampl.getD 1) ((g + k.aCoeff.getD 0) / 2) :=
  C63_lorentzian hg ha

/-- The other amplitudes: the profile is linear in the amplitude, so it is zero or upside down. -/
theorem C63_scale {x x0 g a c : ℝ} : lorentzian x x0 g (c * a) = (lorentzian x x0 g a).map (c * ·) := by
  unfold lorentzian
  split
  · rfl
  · simp only [Option.map_some, Option.some.injEq]
    ring

/-- The degenerate width: not a number at the centre, zero elsewhere. -/
theorem C63_zero_width {x x0 a : ℝ} : lorentzian x x0 0 a = if x = x0 then none else some 0 := by
  unfold lorentzian
  by_cases h : x = x0
  · simp [h]
  · have : x - x0 ≠ 0 := sub_ne_zero.2 h
    simp [h, this]

/-- A line at 5 of width 2 and height 3. -/
example : Bell (fun x => lorentzian x 5 2 3) 5 3 1 := by
  have := C63_lorentzian (x0 := 5) (g := 2) (a := 3) (by norm_num) (by norm_num)
  norm_num at this
  exact this

/-! ## C64 -/

/-- The full claim: the loop ends normally with the least `n` for which the estimate holds. -/
def C64_full : Prop := ∀ depth : ℝ, ∃ n, SideLoop depth 0 (.ok n) ∧ IsLeast {n : ℕ | (depth / 2) ^ n ≤ 1 / 100 * n.factorial} n

theorem SideLoop.least {d : ℝ} {n : ℕ} {r : Py ℕ} (h : SideLoop d n r) : ∀ m, r = .ok m →
    n ≤ m ∧ (d / 2) ^ m ≤ 1 / 100 * m.factorial ∧ ∀ k, n ≤ k → k < m → (d / 2) ^ k > 1 / 100 * k.factorial := by
  induction h with
  | powOver => intro m h; cases h
  | facOver => intro m h; cases h
  | stop h1 h2 h3 =>
    intro m h
    cases h
    exact ⟨le_refl _, not_lt.1 h3, fun k h4 h5 => absurd h4 (by omega)⟩
  | @step n r h1 h2 h3 h4 ih =>
    intro m h
    obtain ⟨g1, g2, g3⟩ := ih m h
    refine ⟨by omega, g2, fun k h5 h6 => ?_⟩
    by_cases hk : k = n
    · rw [hk]; exact h3
    · exact g3 k (by omega) h6

/-- Whenever the constructor returns, it has chosen the least number. -/
theorem C64_least_partial {d : ℝ} {n : ℕ} (h : SideLoop d 0 (.ok n)) : IsLeast {n : ℕ | (d / 2) ^ n ≤ 1 / 100 * n.factorial} n := by
  obtain ⟨-, h2, h3⟩ := h.least n rfl
  refine ⟨h2, fun m hm => ?_⟩
  by_contra hlt
  exact absurd hm (not_le.2 (h3 m (by omega) (by omega)))

theorem floatTop_nat : ((2 ^ 1024 - 2 ^ 970 : ℕ) : ℝ) = floatTop := by
  unfold floatTop
  rw [Nat.cast_sub (by decide +kernel), Nat.cast_pow, Nat.cast_pow, Nat.cast_ofNat]

theorem factorial_fits {n : ℕ} (h : n ≤ 170) : (n.factorial : ℝ) < floatTop := by
  have h1 : n.factorial ≤ Nat.factorial 170 := Nat.factorial_le h
  have h2 : Nat.factorial 170 < 2 ^ 1024 - 2 ^ 970 := by decide +kernel
  rw [← floatTop_nat]
  exact_mod_cast lt_of_le_of_lt h1 h2

theorem factorial_over : floatTop ≤ ((171 : ℕ).factorial : ℝ) := by
  have h2 : 2 ^ 1024 - 2 ^ 970 ≤ Nat.factorial 171 := by decide +kernel
  rw [← floatTop_nat]
  exact_mod_cast h2

/-- Termination, for every depth: the loop ends after at most 171 passes, with a number or with an OverflowError. -/
theorem C64_ends_partial (d : ℝ) : ∃ r, SideLoop d 0 r ∧ (r = .error .OverflowError ∨ ∃ n, r = .ok n) := by
  suffices h : ∀ j n, n + j = 171 → ∃ r, SideLoop d n r ∧ (r = .error .OverflowError ∨ ∃ n, r = .ok n) from h 171 0 rfl
  intro j
  induction j with
  | zero =>
    intro n hn
    obtain rfl : n = 171 := by omega
    refine ⟨_, ?_, .inl rfl⟩
    rcases le_or_gt floatTop |(d / 2) ^ 171| with h | h
    · exact .powOver h
    · exact .facOver h factorial_over
  | succ j ih =>
    intro n hn
    rcases le_or_gt floatTop |(d / 2) ^ n| with h | h
    · exact ⟨_, .powOver h, .inl rfl⟩
    · have hf := factorial_fits (n := n) (by omega)
      by_cases hc : (d / 2) ^ n > 1 / 100 * n.factorial
      · obtain ⟨r, h1, h2⟩ := ih (n + 1) (by omega)
        exact ⟨r, .step h hf hc h1, h2⟩
      · exact ⟨_, .stop h hf hc, .inr ⟨n, rfl⟩⟩

/-- The result is unique. -/
theorem C64_unique_partial {d : ℝ} {n : ℕ} {r r' : Py ℕ} (h : SideLoop d n r) (h' : SideLoop d n r') : r = r' := by
  induction h with
  | powOver h1 =>
    cases h' with
    | powOver => rfl
    | facOver g1 g2 => rfl
    | stop g1 => exact absurd h1 (not_le.2 g1)
    | step g1 => exact absurd h1 (not_le.2 g1)
  | facOver h1 h2 =>
    cases h' with
    | powOver => rfl
    | facOver g1 g2 => rfl
    | stop g1 g2 => exact absurd h2 (not_le.2 g2)
    | step g1 g2 => exact absurd h2 (not_le.2 g2)
  | stop h1 h2 h3 =>
    cases h' with
    | powOver g1 => exact absurd g1 (not_le.2 h1)
    | facOver g1 g2 => exact absurd g2 (not_le.2 h2)
    | stop g1 g2 => rfl
    | step g1 g2 g3 => exact absurd g3 h3
  | step h1 h2 h3 h4 ih =>
    cases h' with
    | powOver g1 => exact absurd g1 (not_le.2 h1)
    | facOver g1 g2 => exact absurd g2 (not_le.2 h2)
    | stop g1 g2 g3 => exact absurd h3 g3
    | step g1 g2 g3 g4 => exact ih g4

/-- For depths up to 124 (and negative ones down to -124) the loop ends normally. -/
theorem C64_moderate_partial {d : ℝ} (hd : |d| ≤ 124) : ∃ n, SideLoop d 0 (.ok n) ∧
    IsLeast {n : ℕ | (d / 2) ^ n ≤ 1 / 100 * n.factorial} n := by
  have habs : |d / 2| ≤ 62 := by rw [abs_div, abs_of_pos (by norm_num : (0 : ℝ) < 2)]; linarith
  have hpow : ∀ n ≤ 170, |(d / 2) ^ n| < floatTop := by
    intro n hn
    rw [abs_pow]
    calc |d / 2| ^ n ≤ 62 ^ n := pow_le_pow_left₀ (abs_nonneg _) habs n
      _ ≤ 62 ^ 170 := pow_le_pow_right₀ (by norm_num) hn
      _ < floatTop := by
        rw [← floatTop_nat]
        have : 62 ^ 170 < 2 ^ 1024 - 2 ^ 970 := by decide +kernel
        exact_mod_cast this
  have hend : (d / 2) ^ 170 ≤ 1 / 100 * (Nat.factorial 170 : ℝ) := by
    have h1 : 100 * 62 ^ 170 ≤ Nat.factorial 170 := by decide +kernel
    have h2 : (100 : ℝ) * 62 ^ 170 ≤ (Nat.factorial 170 : ℝ) := by exact_mod_cast h1
    have h3 : (d / 2) ^ 170 ≤ 62 ^ 170 := by
      calc (d / 2) ^ 170 ≤ |(d / 2) ^ 170| := le_abs_self _
        _ = |d / 2| ^ 170 := abs_pow _ _
        _ ≤ 62 ^ 170 := pow_le_pow_left₀ (abs_nonneg _) habs _
    linarith
  suffices h : ∀ j n, n + j = 170 → ∃ m, SideLoop d n (.ok m) by
    obtain ⟨m, h⟩ := h 170 0 rfl
    exact ⟨m, h, C64_least_partial h⟩
  intro j
  induction j with
  | zero =>
    intro n hn
    obtain rfl : n = 170 := by omega
    exact ⟨_, .stop (hpow _ le_rfl) (factorial_fits le_rfl) (not_lt.2 hend)⟩
  | succ j ih =>
    intro n hn
    by_cases hc : (d / 2) ^ n > 1 / 100 * n.factorial
    · obtain ⟨r, h1⟩ := ih (n + 1) (by omega)
      exact ⟨r, .step (hpow n (by omega)) (factorial_fits (by omega)) hc h1⟩
    · exact ⟨_, .stop (hpow n (by omega)) (factorial_fits (by omega)) hc⟩

theorem depth125 : ∀ n < 171, n.factorial * 2 ^ n < 100 * 125 ^ n := by decide +kernel

/-- C64 fails: at depth 125 the loop reaches `171!`, which is not representable as a float. -/
theorem C64_raises : SideLoop 125 0 (.error .OverflowError) := by
  have hc : ∀ n < 171, ((125 : ℝ) / 2) ^ n > 1 / 100 * n.factorial := by
    intro n hn
    have : (n.factorial : ℝ) * 2 ^ n < 100 * 125 ^ n := by exact_mod_cast depth125 n hn
    rw [div_pow, gt_iff_lt, lt_div_iff₀ (by positivity)]
    linarith
  obtain ⟨r, h1, h2⟩ := C64_ends_partial 125
  rcases h2 with rfl | ⟨n, rfl⟩
  · exact h1
  · exfalso
    have hn : n < 171 := by
      by_contra hge
      -- the loop cannot pass 171
      have key : ∀ k r, SideLoop 125 k r → k ≤ 171 → ∀ m, r = .ok m → m < 171 := by
        intro k r h
        induction h with
        | powOver => intro _ m h; cases h
        | facOver => intro _ m h; cases h
        | @stop n g1 g2 g3 =>
          intro hk m h
          cases h
          rcases lt_or_eq_of_le hk with h | rfl
          · exact h
          · exact absurd g2 (not_lt.2 factorial_over)
        | @step n r g1 g2 g3 g4 ih =>
          intro hk m h
          rcases lt_or_eq_of_le hk with h' | rfl
          · exact ih (by omega) m h
          · exact absurd g2 (not_lt.2 factorial_over)
      exact hge (key 0 _ h1 (by omega) n rfl)
    exact absurd (C64_least_partial h1).1 (not_le.2 (hc n hn))

theorem C64_fails : ¬C64_full := by
  intro h
  obtain ⟨n, h1, -⟩ := h 125
  have := C64_unique_partial h1 C64_raises
  cases this

/-- With unbounded arithmetic the claim would hold: there always is such a number. -/
theorem C64_exists (d : ℝ) : ∃ n : ℕ, (d / 2) ^ n ≤ 1 / 100 * n.factorial := by
  have h := FloorSemiring.tendsto_pow_div_factorial_atTop (d / 2)
  have h2 := (h.eventually (gt_mem_nhds (by norm_num : (0 : ℝ) < 1 / 100))).exists
  obtain ⟨n, hn⟩ := h2
  have hf : (0 : ℝ) < n.factorial := by exact_mod_cast n.factorial_pos
  exact ⟨n, by rw [div_lt_iff₀ hf] at hn; exact hn.le⟩

/-- Depth 2: six sidebands, `6! = 720 ≥ 100` but `4! = 24`, `5! = 120`; so five. -/
example : ∃ n, SideLoop 2 0 (.ok n) ∧ n = 5 := by
  obtain ⟨n, h1, h2, h3⟩ := C64_moderate_partial (d := 2) (by norm_num)
  refine ⟨n, h1, le_antisymm (h3 (by norm_num [Nat.factorial])) ?_⟩
  by_contra hlt
  have : n ≤ 4 := by omega
  simp only [Set.mem_ofPred_eq] at h2
  interval_cases n <;> norm_num [Nat.factorial] at h2

/-! ## C65 -/

theorem addElt_some {a b : ℝ} : addElt (some a) (some b) = some (a + b) := rfl

/-- The modulated line as a sum: the carrier and a pair of sidebands for every `i` up to `n`. -/
noncomputable def modSpec (jv : ℕ → ℝ → ℝ) (x x0 g a d f : ℝ) (n : ℤ) : ℝ :=
  a * jv 0 d ^ 2 * g ^ 2 / (4 * (x - x0) ^ 2 + g ^ 2) +
    ∑ i ∈ Finset.range n.toNat, (a * jv (i + 1) d ^ 2 * g ^ 2 / (4 * (x - (x0 + (i + 1 : ℕ) * f)) ^ 2 + g ^ 2) +
      a * jv (i + 1) d ^ 2 * g ^ 2 / (4 * (x - (x0 - (i + 1 : ℕ) * f)) ^ 2 + g ^ 2))

theorem modSum_spec (jv : ℕ → ℝ → ℝ) {x x0 g a d f : ℝ} {n : ℤ} (hg : g ≠ 0) :
    modSum jv x x0 g a d f n = some (modSpec jv x x0 g a d f n) := by
  unfold modSum modSpec rangeOne
  generalize n.toNat = k
  rw [lorentzian_of hg, addElt_some, zero_add]
  induction k with
  | zero => simp
  | succ k ih =>
    rw [List.range_succ, List.map_append, List.foldl_append, ih, Finset.sum_range_succ]
    simp only [List.map_cons, List.map_nil, List.foldl_cons, List.foldl_nil, sideStep, lorentzian_of hg, addElt_some,
      Option.some.injEq]
    ring

theorem modSpec_symm (jv : ℕ → ℝ → ℝ) (x0 u g a d f : ℝ) (n : ℤ) :
    modSpec jv (x0 - u) x0 g a d f n = modSpec jv (x0 + u) x0 g a d f n := by
  unfold modSpec
  congr 1
  · congr 2; ring
  · apply Finset.sum_congr rfl
    intro i _
    rw [add_comm]
    congr 1
    · congr 2; ring
    · congr 2; ring

/-- C65 for `ModLorentzianLineShape.shape_func`: every element is a number; symmetric about the centre; not negative; and without
sidebands the Lorentzian scaled by the square of the zeroth Bessel function. -/
theorem C65_shape (jv : ℕ → ℝ → ℝ) {x0 gamma d f : ℝ} {n : ℤ} {k : Kw} (hg : modWidth gamma k ≠ 0) :
    (∀ u, ∃ v, (modShape jv gamma d f n).shape (x0 - u) x0 k = some v ∧ (modShape jv gamma d f n).shape (x0 + u) x0 k = some v ∧
      (0 ≤ k.ampl.getD 1 → 0 ≤ v)) ∧
    (n ≤ 0 → ∀ x, (modShape jv gamma d f n).shape x x0 k = lorentzian x x0 (modWidth gamma k) (k.ampl.getD 1 * jv 0 d ^ 2)) := by
  refine ⟨fun u => ⟨modSpec jv (x0 + u) x0 (modWidth gamma k) (k.ampl.getD 1) d f n, ?_, ?_, ?_⟩, ?_⟩
  · show modSum _ _ _ _ _ _ _ _ = _
    rw [modSum_spec jv hg, modSpec_symm]
  · exact modSum_spec jv hg
  · intro ha
    unfold modSpec
    have hden : ∀ y : ℝ, 0 ≤ 4 * y ^ 2 + modWidth gamma k ^ 2 := fun y => by positivity
    refine add_nonneg (div_nonneg (by positivity) (hden _)) (Finset.sum_nonneg fun i _ => ?_)
    exact add_nonneg (div_nonneg (by positivity) (hden _)) (div_nonneg (by positivity) (hden _))
  · intro hn x
    show modSum _ _ _ _ _ _ _ _ = _
    rw [modSum_spec jv hg, lorentzian_of hg]
    unfold modSpec
    rw [Int.toNat_of_nonpos hn]
    simp

/-- C65 for the function `mod_lorentzian`, over whole arrays; its default number of sidebands raises. -/
theorem C65_function (jv : ℕ → ℝ → ℝ) {x0 g a d f : ℝ} {n : ℤ} (hg : g ≠ 0) (us : List ℝ) :
    (∃ vs : List ℝ, modLorentzian jv (us.map (x0 - ·)) x0 g a d (some n) f = .ok (vs.map some) ∧
      modLorentzian jv (us.map (x0 + ·)) x0 g a d (some n) f = .ok (vs.map some) ∧ (0 ≤ a → ∀ v ∈ vs, 0 ≤ v)) ∧
    (n ≤ 0 → modLorentzian jv us x0 g a d (some n) f = .ok (us.map fun x => lorentzian x x0 g (a * jv 0 d ^ 2))) ∧
    modLorentzian jv us x0 g a d none f = .error .TypeError := by
  have key := fun u => (C65_shape jv (x0 := x0) (gamma := g) (d := d) (f := f) (n := n) (k := { ampl := some a }) hg).1 u
  refine ⟨⟨us.map fun u => modSpec jv (x0 + u) x0 g a d f n, ?_, ?_, ?_⟩, ?_, rfl⟩
  · simp only [modLorentzian, List.map_map, Except.ok.injEq]
    apply List.map_congr_left
    intro u _
    simp only [Function.comp]
    rw [modSum_spec jv hg, modSpec_symm]
  · simp only [modLorentzian, List.map_map, Except.ok.injEq]
    apply List.map_congr_left
    intro u _
    exact modSum_spec jv hg
  · intro ha v hv
    obtain ⟨u, -, rfl⟩ := List.mem_map.1 hv
    obtain ⟨v, h1, h2, h3⟩ := key u
    have : modSum jv (x0 + u) x0 g a d f n = some v := h2
    rw [modSum_spec jv hg, Option.some.injEq] at this
    rw [this]
    exact h3 ha
  · intro hn
    simp only [modLorentzian, Except.ok.injEq]
    apply List.map_congr_left
    intro x _
    exact (C65_shape jv (x0 := x0) (gamma := g) (d := d) (f := f) (n := n) (k := { ampl := some a }) hg).2 hn x

/-- Modulation without depth leaves the line as it is, if `jv` has the values of the Bessel functions at zero. -/
theorem C65_no_depth {jv : ℕ → ℝ → ℝ} (h0 : jv 0 0 = 1) (hi : ∀ i, jv (i + 1) 0 = 0) {x x0 g f : ℝ} {n : ℤ} {k : Kw}
    (hg : modWidth g k ≠ 0) : (modShape jv g 0 f n).shape x x0 k = lorentzian x x0 (modWidth g k) (k.ampl.getD 1) := by
  show modSum _ _ _ _ _ _ _ _ = _
  rw [modSum_spec jv hg, lorentzian_of hg]
  unfold modSpec
  simp [h0, hi]

/-- The width of `ModLorentzianLineShape` made explicit: `A_coeff` is a rate per second and enters as `A / 2π` in megahertz; without it
the width is `gamma`.  Without sidebands the line of depth zero is a bell of half that half width. -/
theorem C65_width {jv : ℕ → ℝ → ℝ} (h0 : jv 0 0 = 1) (hi : ∀ i, jv (i + 1) 0 = 0) {x0 gamma f : ℝ} {n : ℤ} {k : Kw}
    (ha : 0 < k.ampl.getD 1) :
    (k.aCoeff = none → gamma ≠ 0 → Bell (fun x => (modShape jv gamma 0 f n).shape x x0 k) x0 (k.ampl.getD 1) (gamma / 2)) ∧
    ∀ a, k.aCoeff = some a → gamma + a / (2 * Real.pi * 10 ^ 6) ≠ 0 →
      Bell (fun x => (modShape jv gamma 0 f n).shape x x0 k) x0 (k.ampl.getD 1) ((gamma + a / (2 * Real.pi * 10 ^ 6)) / 2) := by
  have key : ∀ w, modWidth gamma k = w → w ≠ 0 →
      Bell (fun x => (modShape jv gamma 0 f n).shape x x0 k) x0 (k.ampl.getD 1) (w / 2) := by
    intro w hw hn
    have e : (fun x => (modShape jv gamma 0 f n).shape x x0 k) = fun x => lorentzian x x0 w (k.ampl.getD 1) := by
      funext x
      rw [C65_no_depth h0 hi (by rw [hw]; exact hn), hw]
    rw [e]
    exact C63_lorentzian hn ha
  refine ⟨fun h => key _ (by rw [modWidth, h]), fun a h => key _ ?_⟩
  rw [modWidth, h]
  show gamma + a / (1000000 * 2 * Real.pi) = _
  congr 2
  ring

/-- A line of natural width `2π · 10⁷` per second: ten megahertz. -/
example : Bell (fun x => (modShape (fun i _ => if i = 0 then 1 else 0) 0 0 3 2).shape x 7 { aCoeff := some (2 * Real.pi * 10 ^ 7) }) 7 1 5 := by
  have h := (C65_width (jv := fun i _ => if i = 0 then 1 else 0) rfl (fun i => rfl) (x0 := 7) (gamma := 0) (f := 3) (n := 2)
    (k := { aCoeff := some (2 * Real.pi * 10 ^ 7) }) (by norm_num)).2 _ rfl
  have e : (0 : ℝ) + 2 * Real.pi * 10 ^ 7 / (2 * Real.pi * 10 ^ 6) = 10 := by
    have := Real.pi_pos
    field_simp
    norm_num
  rw [e] at h
  have h2 : (10 : ℝ) / 2 = 5 := by norm_num
  rw [h2] at h
  exact h (by norm_num)

/-- A width that is not zero. -/
example : modWidth 2 { aCoeff := some 1 } ≠ 0 := by
  unfold modWidth
  have : 0 < Real.pi := Real.pi_pos
  positivity

/-! ## C66 -/

/-- `xs` are `n` equally spaced numbers from `a` to `b`. -/
structure Evenly (xs : List ℝ) (a b : ℝ) (n : ℕ) : Prop where
  len : xs.length = n
  first : xs.head? = some a
  last : xs.getLast? = some b
  step : ∀ (i : ℕ) x y, xs[i]? = some x → xs[i + 1]? = some y → y - x = (b - a) / (n - 1)

/-- The full claim. -/
def C66_full : Prop := ∀ (s : LineShape) (x0 : ℝ) (n : ℕ) (k : Kw), 1 ≤ n →
  ∃ xs ys, s.compute x0 n k = .ok (xs, ys) ∧ Evenly xs (x0 - s.width k) (x0 + s.width k) n ∧
    xs.reverse = xs.map (fun x => 2 * x0 - x) ∧ ys.length = xs.length ∧
    ∀ (i : ℕ) x y, xs[i]? = some x → ys[i]? = some y → y = s.shape x x0 k

/-- The points, without the special treatment of the last one. -/
theorem linspace_eq {a b : ℝ} {n : ℕ} (hn : 2 ≤ n) :
    linspace a b n = .ok ((List.range n).map fun i : ℕ => a + i * ((b - a) / (n - 1))) := by
  unfold linspace
  rw [if_neg (by omega), if_neg (by omega)]
  simp only [Int.toNat_natCast, Except.ok.injEq]
  apply List.map_congr_left
  intro i hi
  have hi := List.mem_range.1 hi
  split
  · rename_i h
    have h1 : (i : ℝ) = (n : ℝ) - 1 := by
      have : (i : ℤ) = (n : ℤ) - 1 := h
      exact_mod_cast congrArg (Int.cast : ℤ → ℝ) this
    have h2 : (n : ℝ) - 1 ≠ 0 := by
      have : (2 : ℝ) ≤ n := by exact_mod_cast hn
      linarith
    rw [h1]
    field_simp
    ring
  · push_cast
    rfl

/-- C66, for at least two points.  Missing: one point (`C66_fails`); none (`C66_none`). -/
theorem C66_window_partial (s : LineShape) (x0 : ℝ) (k : Kw) {n : ℕ} (hn : 2 ≤ n) :
    ∃ xs ys, s.compute x0 n k = .ok (xs, ys) ∧ Evenly xs (x0 - s.width k) (x0 + s.width k) n ∧
      xs.reverse = xs.map (fun x => 2 * x0 - x) ∧ ys.length = xs.length ∧
      ∀ (i : ℕ) x y, xs[i]? = some x → ys[i]? = some y → y = s.shape x x0 k := by
  have hn1 : (n : ℝ) - 1 ≠ 0 := by
    have : (2 : ℝ) ≤ n := by exact_mod_cast hn
    linarith
  refine ⟨_, _, by unfold LineShape.compute; rw [linspace_eq hn]; rfl, ⟨by simp, ?_, ?_, ?_⟩, ?_, by simp, ?_⟩
  · obtain ⟨m, rfl⟩ : ∃ m, n = m + 1 := ⟨n - 1, by omega⟩
    simp [List.range_succ_eq_map]
  · obtain ⟨m, rfl⟩ : ∃ m, n = m + 1 := ⟨n - 1, by omega⟩
    rw [List.range_succ, List.map_append]
    simp only [List.map_cons, List.map_nil, List.getLast?_append, List.getLast?_singleton, Option.some_or, Option.some.injEq]
    push_cast at hn1 ⊢
    have : (m : ℝ) ≠ 0 := by intro h; rw [h] at hn1; simp at hn1
    field_simp
    ring
  · intro i x y hx hy
    simp only [List.getElem?_map, Option.map_eq_some_iff] at hx hy
    obtain ⟨j, hj, rfl⟩ := hx
    obtain ⟨j', hj', rfl⟩ := hy
    rw [List.getElem?_eq_some_iff] at hj hj'
    obtain ⟨h1, rfl⟩ := hj
    obtain ⟨h2, rfl⟩ := hj'
    simp only [List.getElem_range]
    push_cast
    ring
  · apply List.ext_getElem (by simp)
    intro i h1 h2
    simp only [List.length_reverse, List.length_map, List.length_range] at h1
    simp only [List.getElem_reverse, List.getElem_map, List.getElem_range, List.length_map, List.length_range]
    rw [Nat.cast_sub (by omega), Nat.cast_sub (by omega)]
    push_cast
    field_simp
    ring
  · intro i x y hx hy
    rw [List.getElem?_map, hx] at hy
    simpa using hy.symm

/-- No points, and a negative number of points. -/
theorem C66_none (s : LineShape) (x0 : ℝ) (k : Kw) : s.compute x0 0 k = .ok ([], []) ∧
    ∀ n < 0, s.compute x0 n k = .error .ValueError := by
  constructor
  · unfold LineShape.compute linspace
    simp [bind, Except.bind]
  · intro n hn
    unfold LineShape.compute linspace
    rw [if_pos hn]
    rfl

/-- C66 fails: with one point the point is at the left end. -/
theorem C66_fails : ¬C66_full := by
  intro h
  obtain ⟨xs, ys, h1, h2, -⟩ := h (lorentzianShape 1) 0 1 {} le_rfl
  have h3 : (lorentzianShape 1).compute 0 (1 : ℕ) {} = .ok ([0 - (lorentzianShape 1).width {}],
      [0 - (lorentzianShape 1).width {}].map fun x => (lorentzianShape 1).shape x 0 {}) := by
    unfold LineShape.compute linspace
    rfl
  rw [h3] at h1
  simp only [Except.ok.injEq, Prod.mk.injEq] at h1
  have h4 := h2.last
  rw [← h1.1] at h4
  simp only [List.getLast?_singleton, Option.some.injEq, lorentzianShape, Option.getD] at h4
  norm_num at h4

/-! ## C73 -/

theorem gaussian_of {x x0 g a : ℝ} (hg : g ≠ 0) : gaussian x x0 g a = some (a * Real.exp (-(x - x0) ^ 2 / (2 * g ^ 2))) := by
  rw [gaussian, if_neg hg]

/-- C73: the Gaussian, for every centre, width other than zero and positive height; its half width is `sqrt (2 ln 2)` times the
standard deviation. -/
theorem C73_gaussian {x0 g a : ℝ} (hg : g ≠ 0) (ha : 0 < a) :
    Bell (fun x => gaussian x x0 g a) x0 a (Real.sqrt (2 * Real.log 2) * g) := by
  have hg2 : 0 < 2 * g ^ 2 := by positivity
  have hlog : 0 < Real.log 2 := Real.log_pos (by norm_num)
  refine ⟨?_, ?_, ?_, ?_, ?_⟩
  · show gaussian x0 x0 g a = _
    rw [gaussian_of hg]
    simp
  · intro x
    show gaussian x x0 g a = _ ↔ _
    rw [gaussian_of hg, Option.some.injEq]
    have h1 : a * Real.exp (-(x - x0) ^ 2 / (2 * g ^ 2)) = a / 2 ↔ (x - x0) ^ 2 = (Real.sqrt (2 * Real.log 2) * g) ^ 2 := by
      rw [mul_pow, Real.sq_sqrt (by positivity)]
      have e : a / 2 = a * Real.exp (-Real.log 2) := by
        rw [Real.exp_neg, Real.exp_log (by norm_num)]; rfl
      rw [e, mul_right_inj' ha.ne', Real.exp_eq_exp, neg_div, neg_inj, div_eq_iff hg2.ne']
      constructor <;> intro h <;> linarith
    rw [h1, sq_eq_sq_iff_eq_or_eq_neg]
    constructor
    · rintro (h | h)
      · right; linarith
      · left; linarith
    · rintro (h | h)
      · right; linarith
      · left; linarith
  · intro u
    show gaussian _ _ _ _ = gaussian _ _ _ _
    rw [gaussian_of hg, gaussian_of hg]
    congr 4
    ring
  · intro x
    refine ⟨_, gaussian_of hg, mul_pos ha (Real.exp_pos _), ?_⟩
    have : Real.exp (-(x - x0) ^ 2 / (2 * g ^ 2)) ≤ 1 := by
      rw [Real.exp_le_one_iff]
      exact div_nonpos_of_nonpos_of_nonneg (by nlinarith [sq_nonneg (x - x0)]) hg2.le
    nlinarith
  · intro x x' h
    refine ⟨_, _, gaussian_of hg, gaussian_of hg, ?_⟩
    have := sq_lt_sq.2 h
    apply mul_lt_mul_of_pos_left _ ha
    apply Real.exp_lt_exp.2
    rw [div_lt_div_iff_of_pos_right hg2]
    linarith

/-- The stored `fwhm` of `GaussianLineShape` (render/lineshapes.py:125), 2.355 standard deviations, is the distance between the
two points of half height up to one part in ten thousand. -/
theorem C73_fwhm {g : ℝ} (hg : 0 < g) : |g * 2.355 - 2 * (Real.sqrt (2 * Real.log 2) * g)| ≤ g * 2.355 / 10000 := by
  have h1 := Real.log_two_gt_d9
  have h2 := Real.log_two_lt_d9
  have hs1 : 1.1774 ≤ Real.sqrt (2 * Real.log 2) := by
    apply Real.le_sqrt_of_sq_le; norm_num; linarith
  have hs2 : Real.sqrt (2 * Real.log 2) ≤ 1.17742 := by
    rw [Real.sqrt_le_left (by norm_num)]; norm_num; linarith
  rw [abs_le]
  constructor <;> nlinarith

/-- C73 for `GaussianLineShape`. -/
theorem C73_shape {x0 g : ℝ} {k : Kw} (hg : g ≠ 0) (ha : 0 < k.ampl.getD 1) :
    Bell (fun x => (gaussianShape g).shape x x0 k) x0 (k.ampl.getD 1) (Real.sqrt (2 * Real.log 2) * g) := C73_gaussian hg ha

/-- A line at 5 of standard deviation 2 and height 3. -/
example : Bell (fun x => gaussian x 5 2 3) 5 3 (Real.sqrt (2 * Real.log 2) * 2) := C73_gaussian (by norm_num) (by norm_num)

/-! ## C74 -/

/-- The window of `s` reaches `p` standard deviations `sd` to either side of the line. -/
def Reaches (s : LineShape) (sd p : ℝ) (k : Kw) : Prop := p * sd ≤ s.width k

/-- The full claim, for the line shapes with a Gaussian profile: if the profile drawn at `x0` is the Gaussian of standard deviation
`sd`, then the window reaches 20 standard deviations. -/
def C74_full : Prop := ∀ (s : LineShape) (sigma : ℝ), 0 < sigma → s = gaussianShape sigma ∨ s = thermalGaussianShape sigma →
  ∀ x0 sd, 0 < sd → (∀ x, s.shape x x0 {} = gaussian x x0 sd 1) → Reaches s sd 20 {}

/-- C74 for the Lorentzian: at the ends of the window the value has dropped to `1 / (4 p² + 1)` of the height. -/
theorem C74_lorentzian_partial {g x0 : ℝ} {k : Kw} (hg : g + k.aCoeff.getD 0 ≠ 0) :
    (lorentzianShape g).shape (x0 + (lorentzianShape g).width k) x0 k =
      some (k.ampl.getD 1 / (4 * k.padding.getD 20 ^ 2 + 1)) := by
  show lorentzian _ _ _ _ = _
  rw [lorentzian_of hg, Option.some.injEq, div_eq_div_iff (lor_den hg).ne' (by positivity)]
  show _ = k.ampl.getD 1 * (4 * (x0 + k.padding.getD 20 * (g + k.aCoeff.getD 0) - x0) ^ 2 + _)
  ring

/-- C74 for the modulated Lorentzian: with positive widths and modulation frequency every sideband drawn has its centre inside
the window, `p` line widths away from its ends. -/
theorem C74_sidebands_partial (jv : ℕ → ℝ → ℝ) {g d f : ℝ} {n : ℤ} {k : Kw} (hf : 0 ≤ f) {i : ℕ} (hi : i ∈ rangeOne n) :
    (i : ℝ) * f + k.padding.getD 20 * modWidth g k ≤ (modShape jv g d f n).width k := by
  obtain ⟨j, hj, rfl⟩ := List.mem_map.1 hi
  have hj := List.mem_range.1 hj
  have h1 : ((j + 1 : ℕ) : ℤ) ≤ n := by omega
  have h2 : ((j + 1 : ℕ) : ℝ) ≤ (n : ℝ) := by exact_mod_cast h1
  show _ ≤ f * n + _
  nlinarith

/-- C74 for the Gaussian. -/
theorem C74_gaussian_partial {g : ℝ} {k : Kw} : Reaches (gaussianShape g) g (k.padding.getD 20) k := le_refl _

theorem gaussian_inj {x0 s t : ℝ} (hs : 0 < s) (ht : 0 < t) (h : ∀ x, gaussian x x0 s 1 = gaussian x x0 t 1) : s = t := by
  have h1 := (C73_gaussian (x0 := x0) (a := 1) hs.ne' one_pos).half (x0 + Real.sqrt (2 * Real.log 2) * s)
  have h2 := (C73_gaussian (x0 := x0) (a := 1) ht.ne' one_pos).half (x0 + Real.sqrt (2 * Real.log 2) * s)
  have hpos : 0 < Real.sqrt (2 * Real.log 2) := Real.sqrt_pos.2 (mul_pos (by norm_num) (Real.log_pos (by norm_num)))
  have h3 := h1.2 (.inr rfl)
  simp only [h] at h3
  rcases h2.1 h3 with h4 | h4
  · nlinarith
  · have : Real.sqrt (2 * Real.log 2) * s = Real.sqrt (2 * Real.log 2) * t := by linarith
    exact mul_left_cancel₀ hpos.ne' this

/-- C74 fails: the width of the thermal Gaussian at `x0` is `sigma * x0`, but its window is made from `sigma` alone; for a line at
1000 with `sigma = 1` the window ends at 0.02 standard deviations. -/
theorem C74_fails : ¬C74_full := by
  intro h
  have := h (thermalGaussianShape 1) 1 one_pos (.inr rfl) 1000 1000 (by norm_num) (fun x => by simp [thermalGaussianShape])
  unfold Reaches thermalGaussianShape at this
  norm_num at this

/-- The thermal Gaussian reaches `p` standard deviations exactly for lines below 1 (in the chosen unit). -/
theorem C74_thermal_iff_partial {sigma x0 p : ℝ} (hs : 0 < sigma) (hp : 0 < p) {k : Kw} (hk : k.padding.getD 20 = p) :
    Reaches (thermalGaussianShape sigma) (sigma * x0) p k ↔ x0 ≤ 1 := by
  unfold Reaches thermalGaussianShape
  simp only [hk]
  rw [mul_le_mul_iff_right₀ hp]
  constructor
  · intro h
    nlinarith
  · intro h
    nlinarith

/-- A window that holds. -/
example : (3 : ℕ) ∈ rangeOne 5 := by decide

/-! ## C75 -/

/-- The full claim: for positive temperature, mass and frequency and any linewidth the thermal line shape gives a value. -/
def C75_full : Prop := ∀ (voigt : ℝ → ℝ → ℝ → ℝ) (sigma gamma x x0 : ℝ) (k : Kw), 0 < sigma → 0 < x0 → 0 ≤ gamma →
  ∃ v, thermalShape voigt sigma gamma x x0 k = .ok (some v)

/-- C75 for positive linewidths: a value, which is not negative, and never above the height in the two limiting cases. -/
theorem C75_positive_partial {voigt : ℝ → ℝ → ℝ → ℝ} (hv : ∀ x s g, 0 ≤ voigt x s g) {sigma gamma x x0 : ℝ} {k : Kw} (hs : 0 < sigma)
    (hx : 0 < x0) (hg : 0 < gamma) (ha : 0 < k.ampl.getD 1) :
    ∃ v, thermalShape voigt sigma gamma x x0 k = .ok (some v) ∧ 0 ≤ v ∧
      (25 < gamma / (sigma * x0) ∨ 25 < sigma * x0 / gamma → v ≤ k.ampl.getD 1) := by
  have hsx : 0 < sigma * x0 := mul_pos hs hx
  unfold thermalShape
  rw [if_neg hsx.ne']
  split
  · obtain ⟨v, h1, h2, h3⟩ := (C63_lorentzian (x0 := x0) hg.ne' ha).range x
    exact ⟨v, by rw [h1], h2.le, fun _ => h3⟩
  · rename_i h
    rw [if_neg hg.ne']
    split
    · obtain ⟨v, h1, h2, h3⟩ := (C73_gaussian (x0 := x0) hsx.ne' ha).range x
      exact ⟨v, by rw [h1], h2.le, fun _ => h3⟩
    · rename_i h'
      refine ⟨_, rfl, mul_nonneg ha.le (hv _ _ _), ?_⟩
      rintro (h1 | h1)
      · exact absurd h1 h
      · exact absurd h1 h'

/-- C75 fails: a linewidth of zero, which is the default of `plot_spectrum` (render/spectra.py:145), raises ZeroDivisionError. -/
theorem C75_raises (voigt : ℝ → ℝ → ℝ → ℝ) (sigma x x0 : ℝ) (k : Kw) :
    thermalShape voigt sigma 0 x x0 k = .error .ZeroDivisionError := by
  unfold thermalShape
  split
  · rfl
  · rw [zero_div, if_neg (by norm_num), if_pos rfl]

theorem C75_fails : ¬C75_full := by
  intro h
  obtain ⟨v, h⟩ := h (fun _ _ _ => 0) 1 0 0 1 {} one_pos one_pos le_rfl
  rw [C75_raises] at h
  cases h

/-- A line at 1 with `sigma = 1`, linewidth 1. -/
example : ∃ v, thermalShape (fun _ _ _ => 0) 1 1 0 1 {} = .ok (some v) := by
  obtain ⟨v, h, -⟩ := C75_positive_partial (voigt := fun _ _ _ => 0) (fun _ _ _ => le_rfl) (sigma := 1) (gamma := 1) (x := 0) (x0 := 1)
    (k := {}) one_pos one_pos one_pos (by simp)
  exact ⟨v, h⟩

/-! ## C139 -/

/-- The full claim: a modulated Lorentzian of depth zero is the plain Lorentzian of the same `gamma`, for all keyword arguments. -/
def C139_full : Prop := ∀ jv : ℕ → ℝ → ℝ, jv 0 0 = 1 → (∀ i, jv (i + 1) 0 = 0) → ∀ (gamma f : ℝ) (n : ℤ) (k : Kw), 0 < gamma →
  (∀ a, k.aCoeff = some a → 0 ≤ a) → ∀ x x0, (modShape jv gamma 0 f n).shape x x0 k = (lorentzianShape gamma).shape x x0 k

/-- C139 without `A_coeff`.  Missing: the calls with it, for which the claim fails unless it is zero (`C139_iff`). -/
theorem C139_plain_partial {jv : ℕ → ℝ → ℝ} (h0 : jv 0 0 = 1) (hi : ∀ i, jv (i + 1) 0 = 0) {gamma f : ℝ} {n : ℤ} {k : Kw}
    (hg : gamma ≠ 0) (hk : k.aCoeff = none) (x x0 : ℝ) :
    (modShape jv gamma 0 f n).shape x x0 k = (lorentzianShape gamma).shape x x0 k := by
  have hw : modWidth gamma k = gamma := by rw [modWidth, hk]
  rw [C65_no_depth h0 hi (by rw [hw]; exact hg), hw]
  show _ = lorentzian _ _ (gamma + k.aCoeff.getD 0) _
  rw [hk, Option.getD_none, add_zero]

/-- The factor between the two readings of `A_coeff`. -/
theorem two_pi_big : (1 : ℝ) < 1000000 * 2 * Real.pi := by nlinarith [Real.pi_gt_three]

/-- With `A_coeff` the two lines agree only if it is zero: one class adds it as it is, the other converts it to megahertz. -/
theorem C139_iff {jv : ℕ → ℝ → ℝ} (h0 : jv 0 0 = 1) (hi : ∀ i, jv (i + 1) 0 = 0) {gamma f a : ℝ} {n : ℤ} {k : Kw}
    (hg : 0 < gamma) (ha : 0 ≤ a) (hk : k.aCoeff = some a) (hA : 0 < k.ampl.getD 1) :
    (∀ x x0, (modShape jv gamma 0 f n).shape x x0 k = (lorentzianShape gamma).shape x x0 k) ↔ a = 0 := by
  have hp := two_pi_big
  have hq : 0 ≤ a / (1000000 * 2 * Real.pi) := div_nonneg ha (by linarith)
  have hw : modWidth gamma k = gamma + a / (1000000 * 2 * Real.pi) := by rw [modWidth, hk]
  have hs : ∀ x x0, (modShape jv gamma 0 f n).shape x x0 k = lorentzian x x0 (gamma + a / (1000000 * 2 * Real.pi)) (k.ampl.getD 1) :=
    fun x x0 => by rw [C65_no_depth h0 hi (by rw [hw]; positivity), hw]
  have hl : ∀ x x0, (lorentzianShape gamma).shape x x0 k = lorentzian x x0 (gamma + a) (k.ampl.getD 1) := fun x x0 => by
    show lorentzian _ _ (gamma + k.aCoeff.getD 0) _ = _
    rw [hk, Option.getD_some]
  constructor
  · intro h
    have h1 := (C63_lorentzian (x0 := 0) (g := gamma + a) (by positivity) hA).half (0 + (gamma + a) / 2)
    have h2 := (C63_lorentzian (x0 := 0) (g := gamma + a / (1000000 * 2 * Real.pi)) (by positivity) hA).half (0 + (gamma + a) / 2)
    have h3 := h1.2 (.inr rfl)
    simp only [← hl, ← h, hs] at h3
    have h4 : a = a / (1000000 * 2 * Real.pi) := by
      rcases h2.1 h3 with h4 | h4 <;> linarith
    have h5 : a * (1000000 * 2 * Real.pi) = a := by
      rw [eq_div_iff (by linarith)] at h4
      exact h4
    nlinarith
  · rintro rfl x x0
    rw [hs, hl, zero_div]

/-- C139 fails: `gamma = 1` and `A_coeff = 1`. -/
theorem C139_fails : ¬C139_full := by
  intro h
  have := (C139_iff (jv := fun i _ => if i = 0 then 1 else 0) rfl (fun i => rfl) (gamma := 1) (f := 0) (a := 1) (n := 0)
    (k := { aCoeff := some 1 }) one_pos zero_le_one rfl (by norm_num)).1
    (h _ rfl (fun i => rfl) 1 0 0 { aCoeff := some 1 } one_pos (fun a e => by cases e; norm_num))
  norm_num at this

/-- A line of width 2 and height 3, with two pairs of sidebands of depth zero. -/
example (x : ℝ) : (modShape (fun i _ => if i = 0 then 1 else 0) 2 0 5 2).shape x 1 { ampl := some 3 } =
    (lorentzianShape 2).shape x 1 { ampl := some 3 } :=
  C139_plain_partial rfl (fun i => rfl) (by norm_num) rfl x 1

end AtomTk
