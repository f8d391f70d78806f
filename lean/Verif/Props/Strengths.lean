import Verif.Model.Wigner
import Verif.Proofs.Racah
import Mathlib.Tactic.LinearCombination

/-! # C52-C58: Wigner symbols, line strengths, coupling conversions, memoisation

What is assumed of the backends is `Wig.Good`: on doubled integers they return Racah's value, or the value is zero and
they raise one of the exceptions that the wrapper catches. -/

namespace AtomTk.Strengths
open Racah

/-! ## The assumption on the backends -/

/-- The angular momentum with doubled value `n`. -/
def half (n : ℤ) : ℚ := n / 2

/-- The 3j symbol of a list. -/
noncomputable def W3 : List ℤ → ℝ
  | [a, b, c, d, e, f] => w3 a b c d e f
  | _ => 0

/-- The 6j symbol of a list. -/
noncomputable def W6 : List ℤ → ℝ
  | [a, b, c, d, e, f] => w6 a b c d e f
  | _ => 0

/-- A backend function computes `V`, or raises where `V` is zero.  sympy rejects numbers that are not half-integers. -/
def Faithful (V : List ℤ → ℝ) : WFun → Prop
  | .py3nj f => ∀ l, f l = .ok (V l) ∨ (V l = 0 ∧ (f l = .error .ValueError ∨ f l = .error .IndexError))
  | .sympy g => (∀ l, g (l.map half) = .ok (V l) ∨ (V l = 0 ∧ g (l.map half) = .error .ValueError)) ∧
      ∀ l, (¬∃ l' : List ℤ, l = l'.map half) → g l = .error .ValueError

/-- Both symbols are right. -/
structure Wig.Good (W : Wig) : Prop where
  three : Faithful W3 W.three
  six : Faithful W6 W.six

/-- A backend that computes Racah's formulas. -/
noncomputable def exactWig : Wig := ⟨.py3nj (fun l => .ok (W3 l)), .py3nj (fun l => .ok (W6 l)), .py3nj (fun _ => .ok 0)⟩

theorem exactWig_good : exactWig.Good := ⟨fun _ => .inl rfl, fun _ => .inl rfl⟩

theorem pyInt_half (n : ℤ) : pyInt (half n * 2) = n := by
  have : half n * 2 = (n : ℚ) := by unfold half; ring
  rw [this]
  simp [pyInt]

theorem half_inj {a b : ℤ} (h : half a = half b) : a = b := by
  rw [← pyInt_half a, h, pyInt_half]

theorem half_neg (a : ℤ) : -half a = half (-a) := by unfold half; push_cast; ring

/-- What the wrapper returns. -/
noncomputable def valOf (V : List ℤ → ℝ) (F : WFun) (l : List ℚ) : ℝ :=
  match F with
  | .py3nj _ => V (l.map (fun x => pyInt (x * 2)))
  | .sympy _ => open Classical in if ∃ l' : List ℤ, l = l'.map half then V (l.map (fun x => pyInt (x * 2))) else 0

theorem map_half (l : List ℤ) : (l.map half).map (fun x => pyInt (x * 2)) = l := by
  rw [List.map_map]
  conv_rhs => rw [← List.map_id l]
  exact List.map_congr_left (fun a _ => pyInt_half a)

theorem picker_val {V : List ℤ → ℝ} {F : WFun} (h : Faithful V F) (l : List ℚ) : wignerPicker F l = .ok (valOf V F l) := by
  cases F with
  | py3nj f =>
    unfold wignerPicker valOf
    rcases h (l.map (fun x => pyInt (x * 2))) with h | ⟨h0, h | h⟩
    · simp only [h]
    · simp only [h, h0]
    · simp only [h, h0]
  | sympy g =>
    unfold wignerPicker valOf
    by_cases hl : ∃ l' : List ℤ, l = l'.map half
    · simp only [if_pos hl]
      obtain ⟨l', rfl⟩ := hl
      rw [map_half]
      rcases h.1 l' with h | ⟨h0, h⟩
      · rw [h]
      · rw [h, h0]
    · simp only [if_neg hl]
      rw [h.2 l hl]

theorem valOf_half (V : List ℤ → ℝ) (F : WFun) (l : List ℤ) : valOf V F (l.map half) = V l := by
  unfold valOf
  cases F with
  | py3nj f => simp only [map_half]
  | sympy g => simp only [map_half]; rw [if_pos ⟨l, rfl⟩]

theorem w3j_half {W : Wig} (h : W.Good) (a b c d e f : ℤ) :
    W.w3j (half a) (half b) (half c) (half d) (half e) (half f) = .ok (w3 a b c d e f) := by
  have := picker_val h.three ([a, b, c, d, e, f].map half)
  rw [valOf_half] at this
  exact this

theorem w6j_half {W : Wig} (h : W.Good) (a b c d e f : ℤ) :
    W.w6j (half a) (half b) (half c) (half d) (half e) (half f) = .ok (w6 a b c d e f) := by
  have := picker_val h.six ([a, b, c, d, e, f].map half)
  rw [valOf_half] at this
  exact this

/-- A half-integer. -/
def IsHalf (x : ℚ) : Prop := ∃ n : ℤ, x = half n

/-! ## C58 -/

/-- The full claim about vanishing, for all arguments. -/
def C58_full : Prop := ∀ (W : Wig), W.Good → ∀ j1 j2 j3 m1 m2 m3 : ℚ,
  ¬(m1 + m2 + m3 = 0 ∧ |j1 - j2| ≤ j3 ∧ j3 ≤ j1 + j2) → W.w3j j1 j2 j3 m1 m2 m3 = .ok 0

/-- C58, 3j symbol, half-integer arguments. -/
theorem C58_three_partial {W : Wig} (h : W.Good) {j1 j2 j3 m1 m2 m3 : ℚ} (h1 : IsHalf j1) (h2 : IsHalf j2) (h3 : IsHalf j3)
    (h4 : IsHalf m1) (h5 : IsHalf m2) (h6 : IsHalf m3)
    (hn : ¬(m1 + m2 + m3 = 0 ∧ |j1 - j2| ≤ j3 ∧ j3 ≤ j1 + j2 ∧ |m1| ≤ j1 ∧ |m2| ≤ j2 ∧ |m3| ≤ j3)) :
    W.w3j j1 j2 j3 m1 m2 m3 = .ok 0 := by
  obtain ⟨a, rfl⟩ := h1; obtain ⟨b, rfl⟩ := h2; obtain ⟨c, rfl⟩ := h3
  obtain ⟨d, rfl⟩ := h4; obtain ⟨e, rfl⟩ := h5; obtain ⟨f, rfl⟩ := h6
  rw [w3j_half h, w3_zero]
  rintro ⟨g1, -, -, -, -, g2, g3, g4, g5, g6⟩
  apply hn
  have key : ∀ x y : ℤ, |x| ≤ y → |half x| ≤ half y := by
    intro x y hxy
    unfold half
    rw [abs_div, abs_two, div_le_div_iff_of_pos_right (by norm_num)]
    exact_mod_cast hxy
  refine ⟨?_, ?_, ?_, key _ _ g2, key _ _ g3, key _ _ g4⟩
  · have : ((d + e + f : ℤ) : ℚ) = 0 := by exact_mod_cast g1
    push_cast at this
    unfold half; linarith
  · have := key _ _ g5
    have e1 : half (a - b) = half a - half b := by unfold half; push_cast; ring
    rwa [e1] at this
  · have : ((c : ℤ) : ℚ) ≤ ((a + b : ℤ) : ℚ) := by exact_mod_cast g6
    push_cast at this
    unfold half; linarith

/-- C58, 6j symbol, half-integer arguments: all four triads. -/
theorem C58_six_partial {W : Wig} (h : W.Good) {a b c d e f : ℚ} (h1 : IsHalf a) (h2 : IsHalf b) (h3 : IsHalf c)
    (h4 : IsHalf d) (h5 : IsHalf e) (h6 : IsHalf f)
    (hn : ¬((|a - b| ≤ c ∧ c ≤ a + b) ∧ (|a - e| ≤ f ∧ f ≤ a + e) ∧ (|d - b| ≤ f ∧ f ≤ d + b) ∧ (|d - e| ≤ c ∧ c ≤ d + e))) :
    W.w6j a b c d e f = .ok 0 := by
  obtain ⟨a, rfl⟩ := h1; obtain ⟨b, rfl⟩ := h2; obtain ⟨c, rfl⟩ := h3
  obtain ⟨d, rfl⟩ := h4; obtain ⟨e, rfl⟩ := h5; obtain ⟨f, rfl⟩ := h6
  rw [w6j_half h, w6_zero]
  have key : ∀ x y z : ℤ, Tri x y z → |half x - half y| ≤ half z ∧ half z ≤ half x + half y := by
    rintro x y z ⟨-, h1, h2⟩
    have h1' : ((|x - y| : ℤ) : ℚ) ≤ (z : ℚ) := by exact_mod_cast h1
    have h2' : (z : ℚ) ≤ ((x + y : ℤ) : ℚ) := by exact_mod_cast h2
    push_cast at h1' h2'
    unfold half
    rw [← sub_div, abs_div, abs_two]
    constructor <;> linarith
  rintro ⟨g1, g2, g3, g4⟩
  exact hn ⟨key _ _ _ g1, key _ _ _ g2, key _ _ _ g3, key _ _ _ g4⟩

/-- The wrapper never raises, whatever the arguments. -/
theorem C58_returns {W : Wig} (h : W.Good) (a b c d e f : ℚ) :
    (∃ v, W.w3j a b c d e f = .ok v) ∧ ∃ v, W.w6j a b c d e f = .ok v :=
  ⟨⟨_, picker_val h.three _⟩, ⟨_, picker_val h.six _⟩⟩

/-- Where the backend rejects the arguments, the wrapper returns zero. -/
theorem C58_rejected (f : List ℤ → Py ℝ) (g : List ℚ → Py ℝ) (l : List ℚ) :
    ((f (l.map (fun x => pyInt (x * 2))) = .error .ValueError ∨ f (l.map (fun x => pyInt (x * 2))) = .error .IndexError) →
      wignerPicker (.py3nj f) l = .ok 0) ∧ (g l = .error .ValueError → wignerPicker (.sympy g) l = .ok 0) := by
  refine ⟨?_, ?_⟩
  · rintro (h | h) <;> simp only [wignerPicker, h]
  · intro h; simp only [wignerPicker, h]

theorem perm_half {l l' : List ℚ} (h : l.Perm l') (hl : ∃ m : List ℤ, l = m.map half) : ∃ m : List ℤ, l' = m.map half := by
  have key : ∀ l : List ℚ, (∃ m : List ℤ, l = m.map half) ↔ ∀ x ∈ l, IsHalf x := by
    intro l
    constructor
    · rintro ⟨m, rfl⟩ x hx
      obtain ⟨n, -, rfl⟩ := List.mem_map.1 hx
      exact ⟨n, rfl⟩
    · intro h
      induction l with
      | nil => exact ⟨[], rfl⟩
      | cons x l ih =>
        obtain ⟨m, hm⟩ := ih (fun y hy => h y (by simp [hy]))
        obtain ⟨n, hn⟩ := h x (by simp)
        exact ⟨n :: m, by rw [List.map_cons, ← hm, ← hn]⟩
  rw [key] at *
  exact fun x hx => hl x (h.mem_iff.2 hx)

theorem valOf_perm (V : List ℤ → ℝ) (F : WFun) {l l' : List ℚ} (h : l.Perm l')
    (hv : V (l.map (fun x => pyInt (x * 2))) ^ 2 = V (l'.map (fun x => pyInt (x * 2))) ^ 2) : valOf V F l ^ 2 = valOf V F l' ^ 2 := by
  unfold valOf
  cases F with
  | py3nj f => exact hv
  | sympy g =>
    simp only
    by_cases hl : ∃ m : List ℤ, l = m.map half
    · rw [if_pos hl, if_pos (perm_half h hl)]; exact hv
    · rw [if_neg hl, if_neg (fun h' => hl (perm_half h.symm h'))]

/-- Exchanging two columns of a 3j symbol changes at most its sign; any arguments. -/
theorem C58_exchange3 {W : Wig} (h : W.Good) (a b c d e f : ℚ) : ∃ v v12 v23 v13, W.w3j a b c d e f = .ok v ∧
    W.w3j b a c e d f = .ok v12 ∧ W.w3j a c b d f e = .ok v23 ∧ W.w3j c b a f e d = .ok v13 ∧
    v12 ^ 2 = v ^ 2 ∧ v23 ^ 2 = v ^ 2 ∧ v13 ^ 2 = v ^ 2 := by
  refine ⟨_, _, _, _, picker_val h.three _, picker_val h.three _, picker_val h.three _, picker_val h.three _, ?_, ?_, ?_⟩
  · refine valOf_perm _ _ ?_ (w3_sq_12 ..)
    refine (List.Perm.swap _ _ _).trans ?_
    exact .cons _ (.cons _ (.cons _ (List.Perm.swap _ _ _)))
  · refine valOf_perm _ _ ?_ (w3_sq_23 ..)
    refine .cons _ ((List.Perm.swap _ _ _).trans ?_)
    exact .cons _ (.cons _ (.cons _ (List.Perm.swap _ _ _)))
  · refine valOf_perm _ _ ?_ (w3_sq_13 ..)
    have e1 : ∀ x y z : ℚ, ∀ l : List ℚ, (x :: y :: z :: l).Perm (z :: y :: x :: l) := by
      intro x y z l
      exact (List.Perm.swap _ _ _).trans ((List.Perm.cons _ (List.Perm.swap _ _ _)).trans (List.Perm.swap _ _ _))
    refine (e1 c b a _).trans (.cons _ (.cons _ (.cons _ (e1 f e d _))))

/-- Exchanging two columns of a 6j symbol; any arguments. -/
theorem C58_exchange6 {W : Wig} (h : W.Good) (a b c d e f : ℚ) : ∃ v v12 v23 v13, W.w6j a b c d e f = .ok v ∧
    W.w6j b a c e d f = .ok v12 ∧ W.w6j a c b d f e = .ok v23 ∧ W.w6j c b a f e d = .ok v13 ∧
    v12 ^ 2 = v ^ 2 ∧ v23 ^ 2 = v ^ 2 ∧ v13 ^ 2 = v ^ 2 := by
  refine ⟨_, _, _, _, picker_val h.six _, picker_val h.six _, picker_val h.six _, picker_val h.six _, ?_, ?_, ?_⟩
  · refine valOf_perm _ _ ?_ (congrArg (· ^ 2) (w6_12 ..))
    refine (List.Perm.swap _ _ _).trans ?_
    exact .cons _ (.cons _ (.cons _ (List.Perm.swap _ _ _)))
  · refine valOf_perm _ _ ?_ (congrArg (· ^ 2) (w6_23 ..))
    refine .cons _ ((List.Perm.swap _ _ _).trans ?_)
    exact .cons _ (.cons _ (.cons _ (List.Perm.swap _ _ _)))
  · refine valOf_perm _ _ ?_ (congrArg (· ^ 2) ?_)
    · have e1 : ∀ x y z : ℚ, ∀ l : List ℚ, (x :: y :: z :: l).Perm (z :: y :: x :: l) := by
        intro x y z l
        exact (List.Perm.swap _ _ _).trans ((List.Perm.cons _ (List.Perm.swap _ _ _)).trans (List.Perm.swap _ _ _))
      refine (e1 c b a _).trans (.cons _ (.cons _ (.cons _ (e1 f e d _))))
    · show w6 _ _ _ _ _ _ = w6 _ _ _ _ _ _
      rw [w6_12, w6_23, w6_12]

/-- Arguments that are not half-integers are truncated for py3nj, so that the symbol can be non-zero although the
projections do not add up to zero. -/
theorem C58_fails : ¬C58_full := by
  intro h
  have := h exactWig exactWig_good 1 1 0 (1/5) (1/5) 0 (by norm_num)
  have e1 : exactWig.w3j 1 1 0 (1/5) (1/5) 0 = .ok (w3 2 2 0 0 0 0) := by
    have : ([1, 1, 0, 1 / 5, 1 / 5, 0] : List ℚ).map (fun x => pyInt (x * 2)) = [2, 2, 0, 0, 0, 0] := by decide +kernel
    show Except.ok (W3 (([1, 1, 0, 1 / 5, 1 / 5, 0] : List ℚ).map (fun x => pyInt (x * 2)))) = _
    rw [this]
    rfl
  rw [e1] at this
  have h0 : w3 2 2 0 0 0 0 = 0 := by simpa using this
  have h1 := w3_sq 2 2 0 0 0 0
  rw [h0, if_pos (by decide)] at h1
  have h2 : norm3 2 2 0 0 0 0 * core3 2 2 0 0 0 0 ^ 2 = 1 / 3 := by decide +kernel
  rw [h2] at h1
  norm_num at h1

example : IsHalf (1/2) ∧ IsHalf 3 ∧ ¬((1/2 : ℚ) + 1/2 + 3 = 0) := ⟨⟨1, by norm_num [half]⟩, ⟨6, by norm_num [half]⟩, by norm_num⟩

/-! ## C52 -/

/-- C52: the strength is the square of the matrix element. -/
theorem C52_square (W : Wig) (k q : ℚ) (s : States) (h0 : 0 ≤ s.F0) (h1 : 0 ≤ s.F1) :
    tkqStrength W k q s = (do let m ← tkqMel W k q s; .ok (m ^ 2)) := by
  unfold tkqStrength tkqMel
  cases W.w6j s.J0 s.J1 k s.F1 s.F0 s.I with
  | error e => rfl
  | ok x =>
    cases W.w3j s.F1 k s.F0 (-s.M1) q s.M0 with
    | error e => rfl
    | ok y =>
      simp only [bind, Except.bind, Except.ok.injEq]
      have e0 : (0 : ℝ) ≤ ((2 * s.F0 + 1 : ℚ) : ℝ) := by exact_mod_cast by linarith
      have e1 : (0 : ℝ) ≤ ((2 * s.F1 + 2 : ℚ) : ℝ) := by exact_mod_cast by linarith
      rw [mul_pow, one_mul, one_mul, mul_pow, mul_pow, Real.sq_sqrt e0, Real.sq_sqrt e1]

/-- C52: never negative. -/
theorem C52_nonneg (W : Wig) (k q : ℚ) (s : States) (h0 : 0 ≤ s.F0) (h1 : 0 ≤ s.F1) (v : ℝ) (h : tkqStrength W k q s = .ok v) :
    0 ≤ v := by
  rw [C52_square W k q s h0 h1] at h
  cases hm : tkqMel W k q s with
  | error e => rw [hm] at h; simp [bind, Except.bind] at h
  | ok m =>
    rw [hm] at h
    simp only [bind, Except.bind, Except.ok.injEq] at h
    rw [← h]; positivity

/-- The quantum numbers are half-integers. -/
structure States.Halves (s : States) : Prop where
  I : IsHalf s.I
  J0 : IsHalf s.J0
  F0 : IsHalf s.F0
  M0 : IsHalf s.M0
  J1 : IsHalf s.J1
  F1 : IsHalf s.F1
  M1 : IsHalf s.M1

theorem isHalf_int (n : ℤ) : IsHalf (n : ℚ) := ⟨2 * n, by unfold half; push_cast; ring⟩

theorem isHalf_neg {x : ℚ} (h : IsHalf x) : IsHalf (-x) := by
  obtain ⟨n, rfl⟩ := h
  exact ⟨-n, half_neg n⟩

/-- C52: zero unless `M1 = M0 + q`. -/
theorem C52_selection {W : Wig} (hW : W.Good) (k q : ℤ) (s : States) (hs : s.Halves) (h : s.M1 ≠ s.M0 + q) :
    tkqStrength W k q s = .ok 0 ∧ tkqMel W k q s = .ok 0 := by
  have h3 := C58_three_partial hW hs.F1 (isHalf_int k) hs.F0 (isHalf_neg hs.M1) (isHalf_int q) hs.M0 (fun hh => h (by linarith [hh.1]))
  obtain ⟨x, hx⟩ := (C58_returns hW s.J0 s.J1 k s.F1 s.F0 s.I).2
  unfold tkqStrength tkqMel
  rw [h3, hx]
  simp [bind, Except.bind]

/-- C52: zero when the 6j symbol vanishes. -/
theorem C52_six {W : Wig} (hW : W.Good) (k q : ℚ) (s : States) (h : W.w6j s.J0 s.J1 k s.F1 s.F0 s.I = .ok 0) :
    tkqStrength W k q s = .ok 0 ∧ tkqMel W k q s = .ok 0 := by
  obtain ⟨x, hx⟩ := (C58_returns hW s.F1 k s.F0 (-s.M1) q s.M0).1
  unfold tkqStrength tkqMel
  rw [h, hx]
  simp [bind, Except.bind]

/-! ## C53 -/

/-- The two states exchanged. -/
def States.swap (s : States) : States := ⟨s.I, s.J1, s.F1, s.M1, s.J0, s.F0, s.M0⟩

/-- The full claim. -/
def C53_full : Prop := ∀ (W : Wig), W.Good → ∀ (k q : ℤ) (s : States), s.Halves → 0 ≤ s.F0 → 0 ≤ s.F1 →
  tkqStrength W k (-q : ℤ) s.swap = tkqStrength W k q s

/-- C53 up to the factors in front: both strengths are the same angular factor, which is symmetric, times
`(2F0+1)(2F1+2)` and `(2F1+1)(2F0+2)`. -/
theorem C53_factor_partial {W : Wig} (hW : W.Good) (k q : ℤ) (s : States) (hs : s.Halves) :
    ∃ x : ℝ, 0 ≤ x ∧ tkqStrength W k q s = .ok (((2 * s.F0 + 1) * (2 * s.F1 + 2) : ℚ) * x) ∧
      tkqStrength W k (-q : ℤ) s.swap = .ok (((2 * s.F1 + 1) * (2 * s.F0 + 2) : ℚ) * x) := by
  obtain ⟨⟨i, hi⟩, ⟨j0, hj0⟩, ⟨f0, hf0⟩, ⟨m0, hm0⟩, ⟨j1, hj1⟩, ⟨f1, hf1⟩, ⟨m1, hm1⟩⟩ := hs
  have hk : (k : ℚ) = half (2 * k) := by unfold half; push_cast; ring
  have hq : (q : ℚ) = half (2 * q) := by unfold half; push_cast; ring
  have hq' : ((-q : ℤ) : ℚ) = half (-(2 * q)) := by unfold half; push_cast; ring
  refine ⟨w6 j0 j1 (2 * k) f1 f0 i ^ 2 * w3 f1 (2 * k) f0 (-m1) (2 * q) m0 ^ 2, by positivity, ?_, ?_⟩
  · unfold tkqStrength
    rw [hj0, hj1, hf0, hf1, hi, hm0, hm1, hk, hq, half_neg, w6j_half hW, w3j_half hW]
    simp only [bind, Except.bind, Except.ok.injEq]
    push_cast; ring
  · unfold tkqStrength States.swap
    simp only
    rw [hj0, hj1, hf0, hf1, hi, hm0, hm1, hk, hq', half_neg, w6j_half hW, w3j_half hW]
    simp only [bind, Except.bind, Except.ok.injEq]
    have e1 : w6 j1 j0 (2 * k) f0 f1 i = w6 j0 j1 (2 * k) f1 f0 i := w6_12 ..
    have e2 : w3 f0 (2 * k) f1 (-m0) (-(2 * q)) m1 ^ 2 = w3 f1 (2 * k) f0 (-m1) (2 * q) m0 ^ 2 := by
      rw [← w3_sq_13, ← w3_sq_flip]
      simp only [neg_neg]
    rw [e1, e2]
    push_cast; ring

/-- C53 where the two total angular momenta are equal. -/
theorem C53_equal_partial {W : Wig} (hW : W.Good) (k q : ℤ) (s : States) (hs : s.Halves) (h : s.F0 = s.F1) :
    tkqStrength W k (-q : ℤ) s.swap = tkqStrength W k q s := by
  obtain ⟨x, -, h1, h2⟩ := C53_factor_partial hW k q s hs
  rw [h1, h2, h]

/-- Because of the factor `2F1 + 2`, the strengths differ whenever F does and they do not vanish. -/
theorem C53_differs {W : Wig} (hW : W.Good) (k q : ℤ) (s : States) (hs : s.Halves) (h : s.F0 ≠ s.F1)
    (hne : tkqStrength W k q s ≠ .ok 0) : tkqStrength W k (-q : ℤ) s.swap ≠ tkqStrength W k q s := by
  obtain ⟨x, -, e1, e2⟩ := C53_factor_partial hW k q s hs
  rw [e1] at hne ⊢
  rw [e2]
  intro he
  simp only [Except.ok.injEq] at he
  have hx : x ≠ 0 := by rintro rfl; simp at hne
  have := mul_right_cancel₀ hx he
  have := Rat.cast_injective this
  apply h
  nlinarith

/-- The states of the counterexample: J = 1/2 and J = 3/2, no nuclear spin. -/
def demoStates : States := ⟨half 0, half 1, half 1, half 1, half 3, half 3, half 1⟩

theorem demoStates_halves : demoStates.Halves :=
  ⟨⟨0, rfl⟩, ⟨1, rfl⟩, ⟨1, rfl⟩, ⟨1, rfl⟩, ⟨3, rfl⟩, ⟨3, rfl⟩, ⟨1, rfl⟩⟩

theorem demoStrength : tkqStrength exactWig (1 : ℤ) (0 : ℤ) demoStates ≠ .ok 0 := by
  have hk : ((1 : ℤ) : ℚ) = half 2 := by norm_num [half]
  have hq : ((0 : ℤ) : ℚ) = half 0 := by norm_num [half]
  unfold tkqStrength demoStates
  simp only
  rw [hk, hq, half_neg, w6j_half exactWig_good, w3j_half exactWig_good]
  simp only [bind, Except.bind, ne_eq, Except.ok.injEq]
  rw [w6_sq, w3_sq, if_pos (by decide), if_pos (by decide)]
  have e1 : norm6 1 3 2 3 1 0 * core6 1 3 2 3 1 0 ^ 2 = 1 / 8 := by decide +kernel
  have e2 : norm3 3 2 1 (-1) 0 1 * core3 3 2 1 (-1) 0 1 ^ 2 = 1 / 6 := by decide +kernel
  rw [e1, e2]
  norm_num [half]

theorem C53_fails : ¬C53_full := by
  intro h
  exact C53_differs exactWig_good 1 0 demoStates demoStates_halves (by norm_num [demoStates, half]) demoStrength (h exactWig exactWig_good 1 0 demoStates demoStates_halves
      (by norm_num [demoStates, half]) (by norm_num [demoStates, half]))

/-! ## C54 -/

/-- Not the zero vector. -/
def V3.Nonzero (v : V3) : Prop := v.x ≠ 0 ∨ v.y ≠ 0 ∨ v.z ≠ 0

theorem V3.norm_pos {v : V3} (h : v.Nonzero) : 0 < v.norm := by
  unfold V3.norm
  apply Real.sqrt_pos.2
  rcases h with h | h | h <;> positivity

/-- A multiple of a vector. -/
def V3.scale (c : ℝ) (v : V3) : V3 := ⟨c * v.x, c * v.y, c * v.z⟩

theorem V3.norm_scale (c : ℝ) (v : V3) : (v.scale c).norm = |c| * v.norm := by
  unfold V3.norm V3.scale
  simp only
  rw [show (c * v.x) ^ 2 + (c * v.y) ^ 2 + (c * v.z) ^ 2 = c ^ 2 * (v.x ^ 2 + v.y ^ 2 + v.z ^ 2) by ring,
    Real.sqrt_mul (by positivity), Real.sqrt_sq_eq_abs]

theorem V3.unit_scale {c : ℝ} (hc : 0 < c) (v : V3) : (v.scale c).unit = v.unit := by
  unfold V3.unit
  rw [V3.norm_scale, abs_of_pos hc]
  unfold V3.scale
  simp only [mul_div_mul_left _ _ hc.ne']

theorem isHalf_one : IsHalf (1 : ℚ) := by simpa using isHalf_int 1

/-- The three dipole components: at most one is non-zero. -/
theorem dip_components {W : Wig} (hW : W.Good) (s : States) (hs : s.Halves) : ∃ a b c : ℝ,
    tkqMel W 1 (-1) s = .ok a ∧ tkqMel W 1 0 s = .ok b ∧ tkqMel W 1 1 s = .ok c ∧ a * b = 0 ∧ a * c = 0 ∧ b * c = 0 := by
  have hr : ∀ q, ∃ a, tkqMel W 1 q s = .ok a := by
    intro q
    obtain ⟨x, hx⟩ := (C58_returns hW s.J0 s.J1 1 s.F1 s.F0 s.I).2
    obtain ⟨y, hy⟩ := (C58_returns hW s.F1 1 s.F0 (-s.M1) q s.M0).1
    unfold tkqMel
    rw [hx, hy]
    exact ⟨_, rfl⟩
  obtain ⟨a, ha⟩ := hr (-1)
  obtain ⟨b, hb⟩ := hr 0
  obtain ⟨c, hc⟩ := hr 1
  have ha0 : s.M1 ≠ s.M0 + (-1 : ℤ) → a = 0 := by
    intro h
    have := (C52_selection hW 1 (-1) s hs h).2
    simp only [Int.cast_one, Int.cast_neg] at this
    rw [ha] at this; simpa using this
  have hb0 : s.M1 ≠ s.M0 + (0 : ℤ) → b = 0 := by
    intro h
    have := (C52_selection hW 1 0 s hs h).2
    simp only [Int.cast_one, Int.cast_zero] at this
    rw [hb] at this; simpa using this
  have hc0 : s.M1 ≠ s.M0 + (1 : ℤ) → c = 0 := by
    intro h
    have := (C52_selection hW 1 1 s hs h).2
    simp only [Int.cast_one] at this
    rw [hc] at this; simpa using this
  refine ⟨a, b, c, ha, hb, hc, ?_, ?_, ?_⟩
  · by_cases h : s.M1 = s.M0 + (-1 : ℤ)
    · rw [hb0 (by rw [h]; push_cast; intro h'; linarith), mul_zero]
    · rw [ha0 h, zero_mul]
  · by_cases h : s.M1 = s.M0 + (-1 : ℤ)
    · rw [hc0 (by rw [h]; push_cast; intro h'; linarith), mul_zero]
    · rw [ha0 h, zero_mul]
  · by_cases h : s.M1 = s.M0 + (0 : ℤ)
    · rw [hc0 (by rw [h]; push_cast; intro h'; linarith), mul_zero]
    · rw [hb0 h, zero_mul]

theorem rootHalf_sq : rootHalf ^ 2 = 1 / 2 := Real.sq_sqrt (by norm_num)

/-- The full claim, for whatever kind of vector argument. -/
def C54_full : Prop := ∀ (W : Wig), W.Good → ∀ (s : States), s.Halves → 0 ≤ s.F0 → 0 ≤ s.F1 → ∀ eps : VArg, eps.v.Nonzero →
  ∃ m v, e1MelGeom W eps.v s = .ok m ∧ e1StrengthGeomCall W eps s = .ok v ∧ v = Complex.normSq m

/-- C54: the strength is the squared modulus of the matrix element, for a tuple. -/
theorem C54_square_partial {W : Wig} (hW : W.Good) (s : States) (hs : s.Halves) (h0 : 0 ≤ s.F0) (h1 : 0 ≤ s.F1) (eps : V3) :
    ∃ m v, e1MelGeom W eps s = .ok m ∧ e1StrengthGeomCall W (.tuple eps) s = .ok v ∧ v = Complex.normSq m := by
  obtain ⟨a, b, c, ha, hb, hc, hab, hac, hbc⟩ := dip_components hW s hs
  have hsq : ∀ q m, tkqMel W 1 q s = .ok m → tkqStrength W 1 q s = .ok (m ^ 2) := by
    intro q m hm; rw [C52_square W 1 q s h0 h1, hm]; rfl
  unfold e1StrengthGeomCall e1MelGeom e1StrengthGeom
  simp only [VArg.hashable, VArg.v, if_true]
  rw [ha, hb, hc, hsq _ _ ha, hsq _ _ hb, hsq _ _ hc]
  refine ⟨_, _, rfl, rfl, ?_⟩
  set e := eps.unit
  simp only [Complex.normSq_apply, Complex.add_re, Complex.add_im, Complex.mul_re, Complex.mul_im, Complex.ofReal_re,
    Complex.ofReal_im, Complex.I_re, Complex.I_im, Complex.sub_re, Complex.sub_im, Complex.zero_re, Complex.zero_im]
  have hh := rootHalf_sq
  set h := rootHalf
  have hh' : h * h = 1 / 2 := by rw [← sq]; exact hh
  ring_nf
  rw [hh]
  linear_combination (-2 * e.x * e.z * h) * hab + (-2 * e.x * e.z * h) * hbc + (- e.x ^ 2 + e.y ^ 2) * hac

/-- C54: the length of the polarisation vector does not matter. -/
theorem C54_length (W : Wig) (s : States) (eps : V3) (c : ℝ) (hc : 0 < c) :
    e1StrengthGeom W (eps.scale c) s = e1StrengthGeom W eps s ∧ e1MelGeom W (eps.scale c) s = e1MelGeom W eps s := by
  unfold e1StrengthGeom e1MelGeom
  rw [V3.unit_scale hc]
  exact ⟨rfl, rfl⟩

/-- C54: the mean over the three axes is the average. -/
theorem C54_mean {W : Wig} (hW : W.Good) (s : States) : ∃ x y z v, e1StrengthGeom W ⟨1, 0, 0⟩ s = .ok x ∧
    e1StrengthGeom W ⟨0, 1, 0⟩ s = .ok y ∧ e1StrengthGeom W ⟨0, 0, 1⟩ s = .ok z ∧ e1StrengthAvg W s = .ok v ∧ (x + y + z) / 3 = v := by
  have hr : ∀ q, ∃ a, tkqStrength W 1 q s = .ok a := by
    intro q
    obtain ⟨x, hx⟩ := (C58_returns hW s.J0 s.J1 1 s.F1 s.F0 s.I).2
    obtain ⟨y, hy⟩ := (C58_returns hW s.F1 1 s.F0 (-s.M1) q s.M0).1
    unfold tkqStrength
    rw [hx, hy]
    exact ⟨_, rfl⟩
  obtain ⟨a, ha⟩ := hr (-1)
  obtain ⟨b, hb⟩ := hr 0
  obtain ⟨c, hc⟩ := hr 1
  unfold e1StrengthGeom e1StrengthAvg
  rw [ha, hb, hc]
  refine ⟨_, _, _, _, rfl, rfl, rfl, rfl, ?_⟩
  have n1 : V3.norm ⟨1, 0, 0⟩ = 1 := by norm_num [V3.norm]
  have n2 : V3.norm ⟨0, 1, 0⟩ = 1 := by norm_num [V3.norm]
  have n3 : V3.norm ⟨0, 0, 1⟩ = 1 := by norm_num [V3.norm]
  simp only [V3.unit, n1, n2, n3]
  ring

/-- C54: the M1 functions agree with the E1 ones. -/
theorem C54_magnetic (W : Wig) (s : States) (eps : V3) : m1MelGeom W eps s = e1MelGeom W eps s ∧
    m1StrengthGeom W eps s = e1StrengthGeom W eps s ∧ m1StrengthAvg W s = e1StrengthAvg W s := ⟨rfl, rfl, rfl⟩

/-- With an array, as the signature asks for, the cached functions raise `TypeError`. -/
theorem C54_fails : ¬C54_full := by
  intro h
  obtain ⟨m, v, -, h2, -⟩ := h exactWig exactWig_good demoStates demoStates_halves (by norm_num [demoStates, half])
    (by norm_num [demoStates, half]) (.array ⟨1, 0, 0⟩) (.inl one_ne_zero)
  cases h2

example : (V3.mk 1 2 0).Nonzero := .inl one_ne_zero

/-! ## C55 -/

/-- C55: the average is a weighted mean. -/
theorem C55_mean (W : Wig) (s : States) (a b c d f : ℝ) (ha : tkqStrength W 2 (-2) s = .ok a) (hb : tkqStrength W 2 (-1) s = .ok b)
    (hc : tkqStrength W 2 0 s = .ok c) (hd : tkqStrength W 2 1 s = .ok d) (hf : tkqStrength W 2 2 s = .ok f) :
    ∃ u v w x y : ℝ, 0 ≤ u ∧ 0 ≤ v ∧ 0 ≤ w ∧ 0 ≤ x ∧ 0 ≤ y ∧ u + v + w + x + y = 1 ∧ u = y ∧ v = x ∧
      quadStrengthAvg W s = .ok (u * a + v * b + w * c + x * d + y * f) := by
  refine ⟨3 / 29, 9 / 58, 14 / 29, 9 / 58, 3 / 29, by norm_num, by norm_num, by norm_num, by norm_num, by norm_num, by norm_num, rfl, rfl, ?_⟩
  unfold quadStrengthAvg
  rw [ha, hb, hc, hd, hf]
  simp only [bind, Except.bind, Except.ok.injEq]
  ring

/-- The average lies between the smallest and the largest component. -/
theorem C55_between (W : Wig) (s : States) (lo hi : ℝ)
    (h : ∀ q : ℤ, ∃ v, tkqStrength W 2 q s = .ok v ∧ lo ≤ v ∧ v ≤ hi) :
    ∃ v, quadStrengthAvg W s = .ok v ∧ lo ≤ v ∧ v ≤ hi := by
  obtain ⟨a, ha, la, ua⟩ := h (-2)
  obtain ⟨b, hb, lb, ub⟩ := h (-1)
  obtain ⟨c, hc, lc, uc⟩ := h 0
  obtain ⟨d, hd, ld, ud⟩ := h 1
  obtain ⟨f, hf, lf, uf⟩ := h 2
  push_cast at ha hb hc hd hf
  unfold quadStrengthAvg
  rw [ha, hb, hc, hd, hf]
  refine ⟨_, rfl, ?_, ?_⟩ <;> linarith

/-- The full claim about the geometric strength. -/
def C55_full : Prop := ∀ (W : Wig), W.Good → ∀ (s : States) (eps k : V3), eps.Nonzero → k.Nonzero → eps.dot k = 0 →
  (∀ q : ℤ, tkqStrength W 2 q s = .ok 0) → quadStrengthGeom W eps k s = .ok 0

/-- What the geometric strength is when all components vanish: the second term of two products is outside them. -/
theorem C55_rest (W : Wig) (s : States) (eps k : V3) (h : ∀ q : ℤ, tkqStrength W 2 q s = .ok 0) :
    quadStrengthGeom W eps k s = .ok (2 * (eps.unit.y * k.unit.x + eps.unit.x * k.unit.y) ^ 2) := by
  have ha := h (-2)
  have hb := h (-1)
  have hc := h 0
  have hd := h 1
  have hf := h 2
  push_cast at ha hb hc hd hf
  unfold quadStrengthGeom
  rw [ha, hb, hc, hd, hf]
  simp only [bind, Except.bind, Except.ok.injEq]
  ring

/-- C55 for vectors for which the misplaced term vanishes. -/
theorem C55_geom_partial (W : Wig) (s : States) (eps k : V3) (h : ∀ q : ℤ, tkqStrength W 2 q s = .ok 0)
    (he : eps.y * k.x + eps.x * k.y = 0) : quadStrengthGeom W eps k s = .ok 0 := by
  rw [C55_rest W s eps k h]
  have : eps.unit.y * k.unit.x + eps.unit.x * k.unit.y = (eps.y * k.x + eps.x * k.y) / (eps.norm * k.norm) := by
    unfold V3.unit
    simp only
    rw [div_mul_div_comm, div_mul_div_comm, ← add_div]
  rw [this, he]
  simp

/-- States between which no quadrupole transition is possible: J = 0 and J = 3. -/
def farStates : States := ⟨half 0, half 0, half 0, half 0, half 6, half 6, half 0⟩

theorem farStates_zero (W : Wig) (hW : W.Good) (q : ℤ) : tkqStrength W 2 q farStates = .ok 0 := by
  refine (C52_six hW 2 q farStates ?_).1
  refine C58_six_partial hW ⟨0, rfl⟩ ⟨6, rfl⟩ (by simpa using isHalf_int 2) ⟨6, rfl⟩ ⟨0, rfl⟩ ⟨0, rfl⟩ ?_
  rintro ⟨⟨h1, h2⟩, -⟩
  norm_num [farStates, half] at h1

theorem C55_fails : ¬C55_full := by
  intro h
  have := h exactWig exactWig_good farStates ⟨1, 0, 0⟩ ⟨0, 1, 0⟩ (.inl one_ne_zero) (.inr (.inl one_ne_zero)) (by norm_num [V3.dot])
    (farStates_zero _ exactWig_good)
  rw [C55_rest _ _ _ _ (farStates_zero _ exactWig_good)] at this
  have n1 : V3.norm ⟨1, 0, 0⟩ = 1 := by norm_num [V3.norm]
  have n2 : V3.norm ⟨0, 1, 0⟩ = 1 := by norm_num [V3.norm]
  simp [V3.unit, n1, n2] at this

/-! ## C56 -/

theorem zip_grid (ls ss : List ℚ) : (npRepeat ls ss.length).zip (npTile ss ls.length) = ls.flatMap (fun l => ss.map (fun s => (l, s))) := by
  induction ls with
  | nil => rfl
  | cons l ls ih =>
    show (List.replicate ss.length l ++ npRepeat ls ss.length).zip (ss ++ npTile ss ls.length) = ss.map (fun s => (l, s)) ++ _
    rw [List.zip_append (by simp), ih]
    congr 1
    clear ih
    induction ss with
    | nil => rfl
    | cons s ss ih2 => simp [List.replicate_succ, ih2]

theorem percs_length (f : ℚ → ℚ → Py ℝ) (l : List (ℚ × ℚ)) (xs : List ℝ) (h : percs f l = .ok xs) : xs.length = l.length := by
  induction l generalizing xs with
  | nil => simp [percs] at h; subst h; rfl
  | cons p l ih =>
    unfold percs at h
    cases h1 : f p.1 p.2 with
    | error e => rw [h1] at h; simp [bind, Except.bind] at h
    | ok x =>
      cases h2 : percs f l with
      | error e => rw [h1, h2] at h; simp [bind, Except.bind] at h
      | ok ys =>
        rw [h1, h2] at h
        simp only [bind, Except.bind, Except.ok.injEq] at h
        subst h
        simp [ih ys h2]

theorem mem_unit_range (a b : ℚ) (x : ℚ) : x ∈ arange a (b + 1) → (∃ n : ℕ, x = a + n) ∧ x < b + 1 := by
  unfold arange
  intro h
  obtain ⟨i, hi, rfl⟩ := List.mem_map.1 h
  refine ⟨⟨i, rfl⟩, ?_⟩
  have h1 : i < (⌈b + 1 - a⌉).toNat := List.mem_range.1 hi
  have h2 : (i : ℤ) < ⌈b + 1 - a⌉ := by omega
  have := Int.lt_ceil.1 h2
  push_cast at this
  linarith

theorem unit_range_mem (a b : ℚ) (n : ℕ) (h : a + n < b + 1) : a + n ∈ arange a (b + 1) := by
  unfold arange
  refine List.mem_map.2 ⟨n, List.mem_range.2 ?_, rfl⟩
  have : (n : ℤ) < ⌈b + 1 - a⌉ := Int.lt_ceil.2 (by push_cast; linarith)
  omega

theorem arange_nodup (a b : ℚ) : (arange a b).Nodup := by
  unfold arange
  refine List.Nodup.map ?_ (List.nodup_range)
  intro i j h
  have : (i : ℚ) = j := by simpa using h
  exact_mod_cast this

/-- The values `x` with `|a - b| ≤ x ≤ a + b` in unit steps. -/
def Couples (a b x : ℚ) : Prop := |a - b| ≤ x ∧ x ≤ a + b ∧ ∃ n : ℤ, x = a + b + n

theorem couples_iff {a b : ℚ} (ha : IsHalf a) (hb : IsHalf b) (ha0 : 0 ≤ a) (hb0 : 0 ≤ b) (x : ℚ) :
    x ∈ arange |a - b| (|a + b| + 1) ↔ Couples a b x := by
  rw [abs_of_nonneg (by linarith : 0 ≤ a + b)]
  obtain ⟨m, rfl⟩ := ha
  obtain ⟨n, rfl⟩ := hb
  have hm : 0 ≤ m := by
    unfold half at ha0
    have : (0 : ℚ) ≤ m := by linarith
    exact_mod_cast this
  have hn : 0 ≤ n := by
    unfold half at hb0
    have : (0 : ℚ) ≤ n := by linarith
    exact_mod_cast this
  -- the two ends differ by an integer
  have hd : ∃ k : ℤ, half m + half n = |half m - half n| + k := by
    rcases le_total (half m) (half n) with h | h
    · refine ⟨m, ?_⟩
      rw [abs_of_nonpos (by linarith)]; unfold half; ring
    · refine ⟨n, ?_⟩
      rw [abs_of_nonneg (by linarith)]; unfold half; ring
  obtain ⟨k, hk⟩ := hd
  constructor
  · intro h
    obtain ⟨⟨i, rfl⟩, h2⟩ := mem_unit_range _ _ _ h
    refine ⟨?_, ?_, (i : ℤ) - k, ?_⟩
    · have : (0 : ℚ) ≤ i := by positivity
      linarith
    · rw [hk] at h2 ⊢
      have : (i : ℚ) < k + 1 := by linarith
      have : (i : ℤ) < k + 1 := by exact_mod_cast this
      have : (i : ℤ) ≤ k := by omega
      have : (i : ℚ) ≤ k := by exact_mod_cast this
      linarith
    · rw [hk]; push_cast; ring
  · rintro ⟨h1, h2, j, rfl⟩
    have h3 : 0 ≤ k + j := by
      rw [hk] at h1
      have : (0 : ℚ) ≤ k + j := by linarith
      exact_mod_cast this
    have e : half m + half n + (j : ℚ) = |half m - half n| + ((k + j).toNat : ℚ) := by
      have : (((k + j).toNat : ℤ) : ℚ) = ((k + j : ℤ) : ℚ) := by rw [Int.toNat_of_nonneg h3]
      push_cast at this
      rw [hk, this]; ring
    rw [e]
    refine unit_range_mem _ _ _ ?_
    rw [← e]; linarith

/-- What C56 says about a result: the (L, S) pairs, L-major, each exactly once, with as many numbers. -/
structure Grid (PL PS : ℚ → Prop) (r : List ℚ × List ℚ × List ℝ) : Prop where
  len : r.1.length = r.2.1.length ∧ r.1.length = r.2.2.length
  once : (r.1.zip r.2.1).Nodup
  all : ∀ L S, (L, S) ∈ r.1.zip r.2.1 ↔ PL L ∧ PS S
  major : (r.1.zip r.2.1).Pairwise (fun p q => p.1 < q.1 ∨ (p.1 = q.1 ∧ p.2 < q.2))

theorem arange_sorted (a b : ℚ) : (arange a b).Pairwise (· < ·) := by
  unfold arange
  rw [List.pairwise_map]
  refine List.Pairwise.imp ?_ List.pairwise_lt_range
  intro i j h
  have : (i : ℚ) < j := by exact_mod_cast h
  linarith

theorem onGrid_spec (f : ℚ → ℚ → Py ℝ) (ls ss : List ℚ) (hl : ls.Pairwise (· < ·)) (hs : ss.Pairwise (· < ·)) (r) (h : onGrid f ls ss = .ok r) :
    Grid (· ∈ ls) (· ∈ ss) r := by
  unfold onGrid at h
  simp only at h
  cases hp : percs f ((npRepeat ls ss.length).zip (npTile ss ls.length)) with
  | error e => rw [hp] at h; simp [bind, Except.bind] at h
  | ok ps =>
    rw [hp] at h
    simp only [bind, Except.bind, Except.ok.injEq] at h
    subst h
    have hlen1 : (npRepeat ls ss.length).length = ls.length * ss.length := by
      unfold npRepeat
      simp [List.length_flatMap]
    have hlen2 : ∀ n, (npTile ss n).length = n * ss.length := by
      intro n
      induction n with
      | zero => simp [npTile]
      | succ n ih => simp [npTile, ih]; ring
    have hmaj : ((npRepeat ls ss.length).zip (npTile ss ls.length)).Pairwise (fun p q => p.1 < q.1 ∨ (p.1 = q.1 ∧ p.2 < q.2)) := by
      rw [zip_grid]
      rw [List.pairwise_flatMap]
      refine ⟨?_, ?_⟩
      · intro l _
        rw [List.pairwise_map]
        exact hs.imp (fun h => .inr ⟨rfl, h⟩)
      · refine hl.imp ?_
        intro a b hab x hx y hy
        obtain ⟨s, -, rfl⟩ := List.mem_map.1 hx
        obtain ⟨t, -, rfl⟩ := List.mem_map.1 hy
        exact .inl hab
    refine ⟨⟨by simp [hlen1, hlen2], ?_⟩, ?_, ?_, hmaj⟩
    · simp only
      rw [percs_length _ _ _ hp, List.length_zip, hlen1, hlen2, min_self]
    · refine hmaj.imp ?_
      rintro p q (h | h) rfl
      · exact lt_irrefl _ h
      · exact lt_irrefl _ h.2
    · intro L S
      simp only
      rw [zip_grid]
      simp [List.mem_flatMap]

/-- C56 for jj coupling. -/
theorem C56_jj (W : Wig) (J Jc Jo lc sc lo so : ℚ) (h1 : IsHalf lc) (h2 : IsHalf sc) (h3 : IsHalf lo) (h4 : IsHalf so)
    (p1 : 0 ≤ lc) (p2 : 0 ≤ sc) (p3 : 0 ≤ lo) (p4 : 0 ≤ so) (r) (h : jjToLS W J Jc Jo lc sc lo so = .ok r) :
    Grid (Couples lc lo) (Couples sc so) r := by
  have := onGrid_spec _ _ _ (arange_sorted _ _) (arange_sorted _ _) r h
  refine ⟨this.len, this.once, fun L S => ?_, this.major⟩
  rw [this.all, couples_iff h1 h3 p1 p3, couples_iff h2 h4 p2 p4]

/-- C56 for jK coupling. -/
theorem C56_jk (W : Wig) (sign : ℚ → ℝ) (J Jc K lc sc lo so : ℚ) (h1 : IsHalf lc) (h2 : IsHalf sc) (h3 : IsHalf lo) (h4 : IsHalf so)
    (p1 : 0 ≤ lc) (p2 : 0 ≤ sc) (p3 : 0 ≤ lo) (p4 : 0 ≤ so) (r) (h : jkToLS W sign J Jc K lc sc lo so = .ok r) :
    Grid (Couples lc lo) (Couples sc so) r := by
  have := onGrid_spec _ _ _ (arange_sorted _ _) (arange_sorted _ _) r h
  refine ⟨this.len, this.once, fun L S => ?_, this.major⟩
  rw [this.all, couples_iff h1 h3 p1 p3, couples_iff h2 h4 p2 p4]

/-- C56 for LK coupling: one entry for every S. -/
theorem C56_lk (W : Wig) (J L K sc so : ℚ) (h2 : IsHalf sc) (h4 : IsHalf so) (p2 : 0 ≤ sc) (p4 : 0 ≤ so) (r)
    (h : lkToLS W J L K sc so = .ok r) : Grid (· = L) (Couples sc so) r := by
  have := onGrid_spec _ _ _ (List.pairwise_singleton _ _) (arange_sorted _ _) r h
  refine ⟨this.len, this.once, fun L' S => ?_, this.major⟩
  rw [this.all, couples_iff h2 h4 p2 p4]
  simp

/-- With a backend that never raises, the conversions return. -/
theorem C56_returns (W : Wig) (hW : W.Good) (h9 : ∀ l, ∃ v, wignerPicker W.nine l = .ok v) (sign : ℚ → ℝ) (J Jc Jo K L lc sc lo so : ℚ) :
    (∃ r, jjToLS W J Jc Jo lc sc lo so = .ok r) ∧ (∃ r, jkToLS W sign J Jc K lc sc lo so = .ok r) ∧ ∃ r, lkToLS W J L K sc so = .ok r := by
  have key : ∀ (f : ℚ → ℚ → Py ℝ), (∀ L S, ∃ v, f L S = .ok v) → ∀ l, ∃ xs, percs f l = .ok xs := by
    intro f hf l
    induction l with
    | nil => exact ⟨[], rfl⟩
    | cons p l ih =>
      obtain ⟨x, hx⟩ := hf p.1 p.2
      obtain ⟨xs, hxs⟩ := ih
      exact ⟨x :: xs, by unfold percs; rw [hx, hxs]; rfl⟩
  have key2 : ∀ (f : ℚ → ℚ → Py ℝ) ls ss, (∀ L S, ∃ v, f L S = .ok v) → ∃ r, onGrid f ls ss = .ok r := by
    intro f ls ss hf
    obtain ⟨xs, hxs⟩ := key f hf ((npRepeat ls ss.length).zip (npTile ss ls.length))
    exact ⟨_, by unfold onGrid; simp only; rw [hxs]; rfl⟩
  refine ⟨key2 _ _ _ (fun L S => ?_), key2 _ _ _ (fun L S => ?_), key2 _ _ _ (fun _ S => ?_)⟩
  · obtain ⟨v, hv⟩ := h9 [lc, sc, Jc, lo, so, Jo, L, S, J]
    exact ⟨_, by unfold Wig.w9j; rw [hv]; rfl⟩
  · obtain ⟨v, hv⟩ := (C58_returns hW sc lc Jc lo K L).2
    obtain ⟨u, hu⟩ := (C58_returns hW L sc K so J S).2
    exact ⟨_, by rw [hv, hu]; rfl⟩
  · obtain ⟨u, hu⟩ := (C58_returns hW L sc K so J S).2
    exact ⟨_, by rw [hu]; rfl⟩

example : Couples 3 1 2 ∧ Couples (1/2) 1 (3/2) ∧ IsHalf (1/2) := by
  refine ⟨⟨by norm_num, by norm_num, -2, by norm_num⟩, ⟨by norm_num, by norm_num, 0, by norm_num⟩, ⟨1, by norm_num [half]⟩⟩

/-! ## C57 -/

/-- The uncached results. -/
noncomputable def plain (W : Wig) : Call → Py ℝ
  | .three args => wignerPicker W.three args
  | .six args => wignerPicker W.six args
  | .strength k q s => tkqStrength W k q s
  | .mel k q s => tkqMel W k q s

/-- Everything in the caches is what the uncached function returns. -/
structure Caches.Ok (W : Wig) (c : Caches) : Prop where
  three : ∀ x v, c.three.get? x = some v → wignerPicker W.three x = .ok v
  six : ∀ x v, c.six.get? x = some v → wignerPicker W.six x = .ok v
  strength : ∀ k q s v, c.strength.get? (k, q, s) = some v → tkqStrength W k q s = .ok v
  mel : ∀ k q s v, c.mel.get? (k, q, s) = some v → tkqMel W k q s = .ok v

theorem get?_set' {κ α : Type _} [DecidableEq κ] (d : Dict κ α) (k k' : κ) (v : α) :
    (d.set k v).get? k' = if k' = k then some v else d.get? k' := by
  induction d with
  | nil => unfold Dict.set Dict.get?; simp [eq_comm]; rfl
  | cons p d ih =>
    obtain ⟨a, b⟩ := p
    unfold Dict.set
    split
    · rename_i h; subst h
      unfold Dict.get?
      by_cases h : a = k' <;> simp [h, eq_comm]
      intro h'; exact absurd h'.symm h
    · rename_i h
      rw [Dict.get?, Dict.get?]
      by_cases h' : a = k'
      · subst h'
        simp [h]
      · simp only [if_neg h', ih]

theorem Caches.w3_ok {W : Wig} {c : Caches} (h : c.Ok W) (args : List ℚ) :
    (c.w3 W args).1.Ok W ∧ (c.w3 W args).2 = wignerPicker W.three args := by
  unfold Caches.w3 cached
  simp only [if_true]
  cases hg : c.three.get? args with
  | some v => exact ⟨h, (h.three _ _ hg).symm⟩
  | none =>
    simp only
    cases hf : wignerPicker W.three args with
    | error e => exact ⟨h, rfl⟩
    | ok v =>
      refine ⟨⟨fun x u hx => ?_, h.six, h.strength, h.mel⟩, rfl⟩
      simp only at hx
      rw [get?_set'] at hx
      split at hx
      · rename_i he; subst he; cases hx; exact hf
      · exact h.three _ _ hx

theorem Caches.w6_ok {W : Wig} {c : Caches} (h : c.Ok W) (args : List ℚ) :
    (c.w6 W args).1.Ok W ∧ (c.w6 W args).2 = wignerPicker W.six args := by
  unfold Caches.w6 cached
  simp only [if_true]
  cases hg : c.six.get? args with
  | some v => exact ⟨h, (h.six _ _ hg).symm⟩
  | none =>
    simp only
    cases hf : wignerPicker W.six args with
    | error e => exact ⟨h, rfl⟩
    | ok v =>
      refine ⟨⟨h.three, fun x u hx => ?_, h.strength, h.mel⟩, rfl⟩
      simp only at hx
      rw [get?_set'] at hx
      split at hx
      · rename_i he; subst he; cases hx; exact hf
      · exact h.six _ _ hx

theorem Caches.body_ok {W : Wig} {c : Caches} (h : c.Ok W) (g : ℝ → ℝ → ℝ) (k q : ℚ) (s : States) :
    (c.body W g k q s).1.Ok W ∧ (c.body W g k q s).2 = (do
      let x ← W.w6j s.J0 s.J1 k s.F1 s.F0 s.I
      let y ← W.w3j s.F1 k s.F0 (-s.M1) q s.M0
      .ok (g x y)) := by
  unfold Caches.body
  obtain ⟨h1, h2⟩ := Caches.w6_ok h [s.J0, s.J1, k, s.F1, s.F0, s.I]
  rcases hc : c.w6 W [s.J0, s.J1, k, s.F1, s.F0, s.I] with ⟨c1, r⟩
  rw [hc] at h1 h2
  simp only at h1 h2
  unfold Wig.w6j
  rw [← h2]
  cases r with
  | error e => exact ⟨h1, rfl⟩
  | ok x =>
    simp only
    obtain ⟨h3, h4⟩ := Caches.w3_ok h1 [s.F1, k, s.F0, -s.M1, q, s.M0]
    rcases hc' : c1.w3 W [s.F1, k, s.F0, -s.M1, q, s.M0] with ⟨c2, r⟩
    rw [hc'] at h3 h4
    simp only at h3 h4
    unfold Wig.w3j
    rw [← h4]
    cases r with
    | error e => exact ⟨h3, rfl⟩
    | ok y => exact ⟨h3, rfl⟩

theorem Caches.call_ok {W : Wig} {c : Caches} (h : c.Ok W) (x : Call) : (c.call W x).1.Ok W ∧ (c.call W x).2 = plain W x := by
  cases x with
  | three args => exact Caches.w3_ok h args
  | six args => exact Caches.w6_ok h args
  | strength k q s =>
    unfold Caches.call plain
    simp only
    cases hg : c.strength.get? (k, q, s) with
    | some v => exact ⟨h, (h.strength _ _ _ _ hg).symm⟩
    | none =>
      simp only
      obtain ⟨h1, h2⟩ := Caches.body_ok h (gStrength s) k q s
      rcases hc : c.body W (gStrength s) k q s with ⟨c1, r⟩
      rw [hc] at h1 h2
      simp only at h1 h2
      have h3 : r = tkqStrength W k q s := h2
      cases r with
      | error e => exact ⟨h1, h3⟩
      | ok v =>
        refine ⟨⟨h1.three, h1.six, fun k' q' s' u hx => ?_, h1.mel⟩, h3⟩
        simp only at hx
        rw [get?_set'] at hx
        split at hx
        · rename_i he
          simp only [Prod.mk.injEq] at he
          obtain ⟨rfl, rfl, rfl⟩ := he
          cases hx; exact h3.symm
        · exact h1.strength _ _ _ _ hx
  | mel k q s =>
    unfold Caches.call plain
    simp only
    cases hg : c.mel.get? (k, q, s) with
    | some v => exact ⟨h, (h.mel _ _ _ _ hg).symm⟩
    | none =>
      simp only
      obtain ⟨h1, h2⟩ := Caches.body_ok h (gMel s) k q s
      rcases hc : c.body W (gMel s) k q s with ⟨c1, r⟩
      rw [hc] at h1 h2
      simp only at h1 h2
      have h3 : r = tkqMel W k q s := h2
      cases r with
      | error e => exact ⟨h1, h3⟩
      | ok v =>
        refine ⟨⟨h1.three, h1.six, h1.strength, fun k' q' s' u hx => ?_⟩, h3⟩
        simp only at hx
        rw [get?_set'] at hx
        split at hx
        · rename_i he
          simp only [Prod.mk.injEq] at he
          obtain ⟨rfl, rfl, rfl⟩ := he
          cases hx; exact h3.symm
        · exact h1.mel _ _ _ _ hx

/-- C57: in every sequence of calls, starting from empty caches, every result is the uncached one; any backend. -/
theorem C57_calls_partial (W : Wig) (xs : List Call) : Caches.calls W ⟨[], [], [], []⟩ xs = xs.map (plain W) := by
  have key : ∀ (xs : List Call) (c : Caches), c.Ok W → Caches.calls W c xs = xs.map (plain W) := by
    intro xs
    induction xs with
    | nil => intro c _; rfl
    | cons x xs ih =>
      intro c h
      obtain ⟨h1, h2⟩ := Caches.call_ok h x
      unfold Caches.calls
      rcases hc : c.call W x with ⟨c1, r⟩
      rw [hc] at h1 h2
      simp only at h1 h2
      show r :: Caches.calls W c1 xs = _
      rw [List.map_cons, ih c1 h1, ← h2]
  refine key xs _ ⟨?_, ?_, ?_, ?_⟩ <;> intros <;> simp [Dict.get?] at *

/-- C57 in general: whatever a cached function with hashable arguments is asked, in any order. -/
theorem C57_general {κ α : Type _} [DecidableEq κ] (f : κ → Py α) (c : Dict κ α) (hc : ∀ x v, c.get? x = some v → f x = .ok v) (x : κ) :
    (cached (fun _ => true) f c x).2 = f x ∧ ∀ y v, (cached (fun _ => true) f c x).1.get? y = some v → f y = .ok v := by
  unfold cached
  simp only [if_true]
  cases hg : c.get? x with
  | some v => exact ⟨(hc _ _ hg).symm, hc⟩
  | none =>
    simp only
    cases hf : f x with
    | error e => exact ⟨rfl, hc⟩
    | ok v =>
      refine ⟨rfl, fun y u hx => ?_⟩
      simp only at hx
      rw [get?_set'] at hx
      split at hx
      · rename_i he; subst he; cases hx; exact hf
      · exact hc _ _ hx

/-- The claim for the functions with a vector argument. -/
def C57_full : Prop := ∀ (W : Wig) (eps : VArg) (s : States), W.Good → e1StrengthGeomCall W eps s = e1StrengthGeom W eps.v s

/-- With a tuple the cached function is the function; with an array it raises `TypeError`, whatever the numbers. -/
theorem C57_vectors (W : Wig) (v : V3) (s : States) : e1StrengthGeomCall W (.tuple v) s = e1StrengthGeom W v s ∧
    e1StrengthGeomCall W (.array v) s = .error .TypeError := ⟨rfl, rfl⟩

/-- An array is not hashable: the cached function raises although the function itself would return. -/
theorem C57_fails : ¬C57_full := by
  intro h
  have := h exactWig (.array ⟨1, 0, 0⟩) demoStates exactWig_good
  obtain ⟨x, _, _, _, hx, _⟩ := C54_mean exactWig_good demoStates
  rw [show (VArg.array ⟨1, 0, 0⟩).v = ⟨1, 0, 0⟩ from rfl, hx] at this
  cases this

end AtomTk.Strengths
