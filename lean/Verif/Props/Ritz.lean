import Verif.Props.TransFresh

/-!
# The combination principle and the interval rule: C147, C148
-/

namespace AtomTk
open Util World Strengths

/-- A line of any kind. -/
inductive Line
  | fine (t : Nat)
  | hyp (x : HTr)
  | zee (y : ZTr)

/-- The two levels of a line, in the order given to its constructor. -/
def Line.ends (w : World) : Line → Ref × Ref
  | .fine t => (.fine (w.tr t).e1, .fine (w.tr t).e2)
  | .hyp x => (.hyp x.e1, .hyp x.e2)
  | .zee y => (.zee y.e1, .zee y.e2)

/-- `line.freq_Hz` (atom.py:591-593). -/
def Line.freq (w : World) : Line → Py ℚ
  | .fine t => .ok (w.freqHz t)
  | .hyp x => w.hFreq x
  | .zee y => w.zFreq y

/-- A way along lines from one level to another, with the frequencies added where it goes up and subtracted where it goes down. -/
inductive Path (w : World) (a : Ref) : Ref → ℚ → Prop
  | start : Path w a a 0
  | up {b d : Ref} {s f eb ed : ℚ} (l : Line) : Path w a b s → l.ends w = (b, d) ∨ l.ends w = (d, b) → l.freq w = .ok f →
      w.refHz b = .ok eb → w.refHz d = .ok ed → eb ≤ ed → Path w a d (s + f)
  | down {b d : Ref} {s f eb ed : ℚ} (l : Line) : Path w a b s → l.ends w = (b, d) ∨ l.ends w = (d, b) → l.freq w = .ok f →
      w.refHz b = .ok eb → w.refHz d = .ok ed → ed ≤ eb → Path w a d (s - f)

/-- The frequency of a line is the distance of the energies of its levels. -/
theorem Line.freq_eq {w : World} {l : Line} {a b : Ref} {f ea eb : ℚ} (h : l.ends w = (a, b)) (hf : l.freq w = .ok f) (ha : w.refHz a = .ok ea)
    (hb : w.refHz b = .ok eb) : f = |ea - eb| := by
  cases l with
  | fine t =>
    simp only [Line.ends, Prod.mk.injEq] at h
    obtain ⟨rfl, rfl⟩ := h
    simp only [refHz, Line.freq, Except.ok.injEq] at ha hb hf
    rw [← ha, ← hb, ← hf]
    rfl
  | hyp x =>
    simp only [Line.ends, Prod.mk.injEq] at h
    obtain ⟨rfl, rfl⟩ := h
    simp only [refHz, Line.freq] at ha hb hf
    unfold hFreq at hf
    rw [ha, hb] at hf
    exact (Except.ok.inj hf).symm
  | zee x =>
    simp only [Line.ends, Prod.mk.injEq] at h
    obtain ⟨rfl, rfl⟩ := h
    simp only [refHz, Line.freq] at ha hb hf
    unfold zFreq at hf
    rw [ha, hb] at hf
    exact (Except.ok.inj hf).symm

theorem Line.freq_eq' {w : World} {l : Line} {a b : Ref} {f ea eb : ℚ} (h : l.ends w = (a, b) ∨ l.ends w = (b, a)) (hf : l.freq w = .ok f)
    (ha : w.refHz a = .ok ea) (hb : w.refHz b = .ok eb) : f = |ea - eb| := by
  rcases h with h | h
  · exact Line.freq_eq h hf ha hb
  · rw [abs_sub_comm]; exact Line.freq_eq h hf hb ha

/-- C147, the combination principle: along any way over transitions, hyperfine and Zeeman lines, in any state of any atom, the frequencies
add up to the difference of the energies at its ends. -/
theorem C147_sum {w : World} {a b : Ref} {s ea eb : ℚ} (h : Path w a b s) (ha : w.refHz a = .ok ea) (hb : w.refHz b = .ok eb) :
    s = eb - ea := by
  induction h generalizing eb with
  | start =>
    rw [ha, Except.ok.injEq] at hb
    rw [hb]; ring
  | up l _ hl hf h1 h2 hle ih =>
    rw [h2, Except.ok.injEq] at hb
    subst hb
    rw [ih h1, Line.freq_eq' hl hf h1 h2, abs_sub_comm, abs_of_nonneg (sub_nonneg.2 hle)]
    ring
  | down l _ hl hf h1 h2 hle ih =>
    rw [h2, Except.ok.injEq] at hb
    subst hb
    rw [ih h1, Line.freq_eq' hl hf h1 h2, abs_of_nonneg (sub_nonneg.2 hle)]
    ring

/-- C147: around a loop they add up to zero, and two ways between the same levels give the same sum. -/
theorem C147_loop {w : World} {a b : Ref} {s s' ea eb : ℚ} (h : Path w a b s) (h' : Path w a b s') (ha : w.refHz a = .ok ea)
    (hb : w.refHz b = .ok eb) : s = s' ∧ (a = b → s = 0) := by
  refine ⟨by rw [C147_sum h ha hb, C147_sum h' ha hb], ?_⟩
  rintro rfl
  rw [ha, Except.ok.injEq] at hb
  rw [C147_sum h ha ha]; ring

/-- C147 for the lines of a transition: the hyperfine line is the transition, plus the shift of its level in the upper manifold, minus the
shift of its level in the lower one. -/
theorem C147_hyperfine {w : World} {x : HTr} {i j : Nat} {J F J' F' si sj f : ℚ} (hx : IsHyp w i J x.e1 F) (hy : IsHyp w j J' x.e2 F')
    (hi : hfShift (w.lv i).hfA (w.lv i).hfB (w.lv i).hfC w.I J F = .ok si) (hj : hfShift (w.lv j).hfA (w.lv j).hfB (w.lv j).hfC w.I J' F' = .ok sj)
    (hf : w.hFreq x = .ok f) (t : Nat) (ht : (w.tr t).e1 = i ∧ (w.tr t).e2 = j ∨ (w.tr t).e1 = j ∧ (w.tr t).e2 = i) :
    (w.eHz i ≤ w.eHz j → w.eHz i + si ≤ w.eHz j + sj → f = w.freqHz t + sj - si) ∧
    (w.eHz j ≤ w.eHz i → w.eHz j + sj ≤ w.eHz i + si → f = w.freqHz t + si - sj) := by
  have e1 : w.hHz x.e1 = .ok (w.eHz i + si) := by
    unfold hHz hShift
    rw [hx.J, hx.F, hx.par]
    simp only [hi]
    rfl
  have e2 : w.hHz x.e2 = .ok (w.eHz j + sj) := by
    unfold hHz hShift
    rw [hy.J, hy.F, hy.par]
    simp only [hj]
    rfl
  unfold hFreq at hf
  rw [e1, e2] at hf
  have hf' : |w.eHz i + si - (w.eHz j + sj)| = f := Except.ok.inj hf
  have hq : w.freqHz t = |w.eHz i - w.eHz j| := by
    unfold freqHz
    rcases ht with ⟨h1, h2⟩ | ⟨h1, h2⟩
    · rw [h1, h2]
    · rw [h1, h2, abs_sub_comm]
  rw [← hf', hq]
  constructor
  · intro h1 h2
    rw [abs_of_nonpos (sub_nonpos.2 h1), abs_of_nonpos (sub_nonpos.2 h2)]
    ring
  · intro h1 h2
    rw [abs_of_nonneg (sub_nonneg.2 h1), abs_of_nonneg (sub_nonneg.2 h2)]
    ring

/-- A loop over three levels with frequencies 10, 20 and 30. -/
def loopAtom : World := runAll [.newLevel (demoTerm 'g') 0 2 0 0 0 none, .newLevel (demoTerm 'a') 10 2 0 0 0 none, .newLevel (demoTerm 'b') 30 2 0 0 0 none,
  .addLevel 0 true none, .addLevel 1 true none, .addLevel 2 true none, .newTrans 0 1 none .none none, .newTrans 2 1 none .none none,
  .newTrans 0 2 none .none none] (emptyAtom 0 0)

example : Path loopAtom (.fine 0) (.fine 0) (0 + 10 + 20 - 30) := by
  refine .down (.fine 2) (b := .fine 2) (eb := 30) (ed := 0) ?_ (by decide +kernel) (by decide +kernel) (by decide +kernel) (by decide +kernel) (by norm_num)
  refine .up (.fine 1) (b := .fine 1) (eb := 10) (ed := 30) ?_ (by decide +kernel) (by decide +kernel) (by decide +kernel) (by decide +kernel) (by norm_num)
  exact .up (.fine 0) (b := .fine 0) (eb := 0) (ed := 10) .start (by decide +kernel) (by decide +kernel) (by decide +kernel) (by decide +kernel) (by norm_num)

/-! ## The interval rule -/

/-- The factor of B in the distance of neighbouring hyperfine levels. -/
def quadStep (I J F : ℚ) : ℚ :=
  if 1 ≤ I ∧ 1 ≤ J then 3 * F * (F ^ 2 - I * (I + 1) - J * (J + 1) + 1 / 2) / (2 * I * (2 * I - 1) * J * (2 * J - 1)) else 0

/-- C148, Landé's interval rule with the quadrupole term: neighbouring hyperfine levels of a level without octupole constant are apart by
`A F + B (3/2) F (F² - I(I+1) - J(J+1) + 1/2) / (I (2I-1) J (2J-1))`. -/
theorem C148_interval (A B I J F s s' : ℚ) (hI : IsSpin I) (hJ : IsSpin J) (h : hfShift A B 0 I J F = .ok s)
    (h' : hfShift A B 0 I J (F - 1) = .ok s') : s - s' = A * F + B * quadStep I J F := by
  rw [hfShift_ok, Except.ok.injEq] at h h'
  rw [← h, ← h']
  have half : ∀ q, IsSpin q → (1 ≤ q ↔ ¬q ≤ 1 / 2) := by
    rintro q ⟨n, rfl⟩
    constructor
    · intro h; linarith
    · intro h
      have : (1 : ℚ) < n := by linarith
      have : 1 < n := by exact_mod_cast this
      have : (2 : ℚ) ≤ n := by exact_mod_cast this
      linarith
  have e : e2 I J F - e2 I J (F - 1) = quadStep I J F := by
    unfold e2 quadStep
    by_cases g : J ≤ 1 / 2 ∨ I ≤ 1 / 2
    · rw [if_pos g, if_pos g, if_neg]
      · ring
      · rintro ⟨h1, h2⟩
        rcases g with g | g
        · exact (half J hJ).1 h2 g
        · exact (half I hI).1 h1 g
    · rw [if_neg g, if_neg g, if_pos]
      · rw [← sub_div]
        congr 1
        unfold iDotJ
        ring
      · rw [not_or] at g
        exact ⟨(half I hI).2 g.2, (half J hJ).2 g.1⟩
  have e1 : iDotJ I J F - iDotJ I J (F - 1) = F := by
    unfold iDotJ; ring
  rw [← e]
  linear_combination A * e1

/-- C148 for the levels of an atom: in every reachable state the hyperfine levels of a level without B and C constants, looked up as
`level['F=...']`, obey the interval rule, so they lie in the order of F if A > 0, in the opposite order if A < 0, and coincide if A = 0. -/
theorem C148_levels {w : World} {i j j' : Nat} {J F F' e e' : ℚ} (hI : IsSpin w.I) (hJ : IsSpin J) (hB : (w.lv i).hfB = 0) (hC : (w.lv i).hfC = 0)
    (hj : IsHyp w i J j F) (hj' : IsHyp w i J j' F') (h : w.hHz j = .ok e) (h' : w.hHz j' = .ok e') :
    e - e' = (w.lv i).hfA * ((F * (F + 1) - F' * (F' + 1)) / 2) ∧ (F' = F - 1 → e - e' = (w.lv i).hfA * F) ∧
    (F' < F → (0 < (w.lv i).hfA → e' < e) ∧ ((w.lv i).hfA < 0 → e < e') ∧ ((w.lv i).hfA = 0 → e = e')) := by
  have h1 := hj.energy
  have h2 := hj'.energy
  rw [h, Except.ok.injEq] at h1
  rw [h', Except.ok.injEq] at h2
  have key : e - e' = (w.lv i).hfA * ((F * (F + 1) - F' * (F' + 1)) / 2) := by
    rw [h1, h2]
    unfold hypE iDotJ
    rw [hB, hC]
    ring
  have hF0 := (hfFs_spin hI hJ hj.mem).nonneg
  have hF0' := (hfFs_spin hI hJ hj'.mem).nonneg
  refine ⟨key, ?_, fun hlt => ?_⟩
  · rintro rfl
    rw [key]; ring
  · have hp : 0 < (F * (F + 1) - F' * (F' + 1)) / 2 := by nlinarith
    refine ⟨fun hA => ?_, fun hA => ?_, fun hA => ?_⟩
    · have := mul_pos hA hp; linarith
    · have := mul_neg_of_neg_of_pos hA hp; linarith
    · rw [hA, zero_mul] at key; linarith

/-- C148: the shift is linear in the three constants. -/
theorem C148_linear (k A B C A' B' C' I J F s s' : ℚ) (h : hfShift A B C I J F = .ok s) (h' : hfShift A' B' C' I J F = .ok s') :
    hfShift (k * A + A') (k * B + B') (k * C + C') I J F = .ok (k * s + s') := by
  rw [hfShift_ok, Except.ok.injEq] at h h'
  rw [hfShift_ok, ← h, ← h']
  congr 1
  ring

/-- The ground level of ytterbium 171 (I = 1/2): F = 1 and F = 0 are apart by A; and a level with J = I = 3/2 and a quadrupole constant. -/
example : hfShift 12642812118 0 0 (1/2) (1/2) 1 = .ok (12642812118 / 4) ∧ hfShift 12642812118 0 0 (1/2) (1/2) (1 - 1) = .ok (-(3 * 12642812118) / 4) ∧
    hfShift 10 4 0 (3/2) (3/2) 3 = .ok (47 / 2) ∧ hfShift 10 4 0 (3/2) (3/2) (3 - 1) = .ok (-(21 / 2)) ∧ quadStep (3/2) (3/2) 3 = 1 := by
  decide +kernel

/-- The hyperfine levels of the ground level of `apartAtom`, with A = 400. -/
example : ∃ w j j' e e', IsHyp w 0 (1/2) j 1 ∧ IsHyp w 0 (1/2) j' 0 ∧ w.hHz j = .ok e ∧ w.hHz j' = .ok e' ∧ e - e' = 400 := by
  have e1 : (apartAtom.tr 0).e1 = 0 := by decide +kernel
  obtain ⟨w, d, g1, g2, g3, g4, g5, g6, g7, -⟩ := hSubs_spec exactWig_good apartAtom_reachable.subInv apartAtom_ready
  have hI : w.I = 1/2 := g2.I.trans (by decide +kernel)
  have ht : (w.tr 0).e1 = 0 := by rw [g2.tr, e1]
  obtain ⟨j, hj⟩ := hyp_all g3 g4.hJ1 g4.hI g4.s1 g4.F1 g6 (F := 1) (by rw [hI]; decide +kernel)
  obtain ⟨j', hj'⟩ := hyp_all g3 g4.hJ1 g4.hI g4.s1 g4.F1 g6 (F := 0) (by rw [hI]; decide +kernel)
  rw [ht] at hj hj'
  obtain ⟨s, hs⟩ := g2.lv 0
  have hA : (w.lv 0).hfA = 400 := by rw [hs]; show (apartAtom.lv 0).hfA = 400; decide +kernel
  refine ⟨w, j, j', _, _, hj, hj', hj.energy, hj'.energy, ?_⟩
  have := (C148_levels g4.hI g4.s1 (by rw [hs]; show (apartAtom.lv 0).hfB = 0; decide +kernel) (by rw [hs]; show (apartAtom.lv 0).hfC = 0; decide +kernel) hj hj' hj.energy hj'.energy).2.1 (by norm_num)
  rw [this, hA]; norm_num

end AtomTk
