import Verif.Model.Units
import Verif.Props.Wavelength
import Verif.Props.Energies

/-!
# C166: energies, constants and frequencies in any unit
-/

namespace AtomTk
open World

/-- The scale of a unit is positive. -/
def UnitQ.Ok : UnitQ → Prop
  | .freq k => 0 < k
  | .length k => 0 < k
  | .wnum k => 0 < k
  | .energy k => 0 < k
  | .field k => 0 < k
  | .other => True

/-- The frequency a quantity stands for: itself, the speed of light over the wavelength, the wavenumber times the speed of light, the energy over Planck's
constant. -/
def Qty.Denotes (q : Qty) (f : ℚ) : Prop :=
  match q.unit with
  | .freq k => f = q.mag * k
  | .length k => q.mag * k * f = 299792458
  | .wnum k => f = 299792458 * (q.mag * k)
  | .energy k => q.mag * k = 662607015 / 10 ^ 42 * f
  | _ => False

/-- The wavenumber zero. -/
def Qty.NoWave (q : Qty) : Prop :=
  match q.unit with
  | .wnum k => q.mag * k = 0
  | _ => False

/-- C166: the value used is the frequency the quantity stands for, whatever the unit, with one exception: the wavenumber zero. -/
theorem C166_value (q : Qty) (f : ℚ) : q.toHz = .ok f ↔ q.Denotes f ∧ ¬q.NoWave := by
  obtain ⟨m, u⟩ := q
  cases u with
  | freq k => simp only [Qty.toHz, Qty.Denotes, Qty.NoWave, Except.ok.injEq, not_false_eq_true, and_true]; exact eq_comm
  | length k =>
    simp only [Qty.toHz, Qty.Denotes, Qty.NoWave, not_false_eq_true, and_true, pyDiv, cLight]
    by_cases h : m * k = 0
    · simp [h]
    · rw [if_neg h, Except.ok.injEq, div_eq_iff h, mul_comm f]
      exact eq_comm
  | wnum k =>
    simp only [Qty.toHz, Qty.Denotes, Qty.NoWave, pyDiv, cLight]
    by_cases h : m * k = 0
    · simp [h, bind, Except.bind]
    · have h1 : (1 : ℚ) / (m * k) ≠ 0 := one_div_ne_zero h
      rw [if_neg h]
      simp only [bind, Except.bind, if_neg h1, Except.ok.injEq, h, not_false_eq_true, and_true]
      rw [show (299792458 : ℚ) / (1 / (m * k)) = 299792458 * (m * k) by rw [div_div_eq_mul_div, div_one]]
      exact eq_comm
  | energy k =>
    simp only [Qty.toHz, Qty.Denotes, Qty.NoWave, not_false_eq_true, and_true, hPlanck, Except.ok.injEq]
    rw [div_eq_iff (by norm_num), mul_comm f]
  | field k => simp [Qty.toHz, Qty.Denotes]
  | other => simp [Qty.toHz, Qty.Denotes]

/-- C166: what raises. The wavelength or wavenumber zero: `ZeroDivisionError`; a field or anything else that is no energy: `DimensionalityError`. -/
theorem C166_errors (m k : ℚ) : (m * k = 0 → (Qty.mk m (.length k)).toHz = .error .ZeroDivisionError ∧ (Qty.mk m (.wnum k)).toHz = .error .ZeroDivisionError) ∧
    (Qty.mk m (.field k)).toHz = .error .DimensionalityError ∧ (Qty.mk m .other).toHz = .error .DimensionalityError := by
  refine ⟨fun h => ⟨?_, ?_⟩, rfl, rfl⟩ <;> simp [Qty.toHz, pyDiv, h, bind, Except.bind]

/-- C166: two quantities standing for the same frequency are the same to the package, unless one of them is the wavenumber zero. -/
theorem C166_same {p q : Qty} {f : ℚ} (hp : p.Denotes f) (hq : q.Denotes f) (hp0 : ¬p.NoWave) (hq0 : ¬q.NoWave) : p.toHz = q.toHz := by
  rw [(C166_value p f).2 ⟨hp, hp0⟩, (C166_value q f).2 ⟨hq, hq0⟩]

/-- C166: what was given in a unit reads back in that unit. -/
theorem C166_back {q : Qty} {f : ℚ} (hu : q.unit.Ok) (h : q.toHz = .ok f) : Qty.ofHz f q.unit = .ok q.mag := by
  obtain ⟨hd, hn⟩ := (C166_value q f).1 h
  obtain ⟨m, u⟩ := q
  cases u with
  | freq k =>
    simp only [Qty.Denotes, UnitQ.Ok] at hd hu
    simp only [Qty.ofHz, Except.ok.injEq, hd]
    field_simp
  | length k =>
    simp only [Qty.Denotes, UnitQ.Ok] at hd hu
    have hf : f ≠ 0 := by rintro rfl; norm_num at hd
    simp only [Qty.ofHz, pyDiv, cLight, if_neg hf, bind, Except.bind, Except.ok.injEq]
    rw [← hd]
    field_simp
  | wnum k =>
    simp only [Qty.Denotes, UnitQ.Ok, Qty.NoWave] at hd hu hn
    have hf : f ≠ 0 := by rw [hd]; exact mul_ne_zero (by norm_num) hn
    have h2 : (299792458 : ℚ) / f ≠ 0 := div_ne_zero (by norm_num) hf
    simp only [Qty.ofHz, pyDiv, cLight, if_neg hf, bind, Except.bind, Except.ok.injEq, if_neg h2]
    rw [one_div_div, hd]
    field_simp
  | energy k =>
    simp only [Qty.Denotes, UnitQ.Ok] at hd hu
    simp only [Qty.ofHz, hPlanck, Except.ok.injEq]
    rw [mul_comm f, ← hd]
    field_simp
  | field k => simp [Qty.Denotes] at hd
  | other => simp [Qty.Denotes] at hd

/-- C166: no energy and no frequency reads as a field, or as anything else that is no energy: `DimensionalityError`. -/
theorem C166_read_errors (f k : ℚ) : Qty.ofHz f (.field k) = .error .DimensionalityError ∧ Qty.ofHz f .other = .error .DimensionalityError := ⟨rfl, rfl⟩

/-- C166: the energy zero, that of the ground state, can be read as a frequency or an energy, but not as a wavelength or wavenumber. -/
theorem C166_ground (k : ℚ) : Qty.ofHz 0 (.freq k) = .ok 0 ∧ Qty.ofHz 0 (.energy k) = .ok 0 ∧ Qty.ofHz 0 (.length k) = .error .ZeroDivisionError ∧
    Qty.ofHz 0 (.wnum k) = .error .ZeroDivisionError := by
  refine ⟨?_, ?_, ?_, ?_⟩ <;> simp [Qty.ofHz, pyDiv, bind, Except.bind]

/-- C166: energies given as wavenumbers other than zero keep their order and their distances, up to the factor c. -/
theorem C166_linear {a b k f g : ℚ} (hk : 0 < k) (ha : (Qty.mk a (.wnum k)).toHz = .ok f) (hb : (Qty.mk b (.wnum k)).toHz = .ok g) :
    f - g = 299792458 * k * (a - b) ∧ (f < g ↔ a < b) := by
  have h1 := ((C166_value _ _).1 ha).1
  have h2 := ((C166_value _ _).1 hb).1
  simp only [Qty.Denotes] at h1 h2
  subst h1 h2
  refine ⟨by ring, ?_⟩
  rw [mul_lt_mul_iff_right₀ (by norm_num), mul_lt_mul_iff_left₀ hk]

/-- The full claim C166 for energies: the energy of any level can be set to any quantity that stands for a frequency. -/
def C166_full : Prop := ∀ w, Reachable w → ∀ r e, w.refHz r = .ok e → ∀ q f, q.unit.Ok → q.Denotes f →
  ∃ w', setLevelQ r q w = (w', .ok ()) ∧ w'.refHz r = .ok f

/-- C166: setting the energy of a level to a quantity is setting it to the frequency the quantity stands for; in the unit of the quantity it then reads
back the number given. -/
theorem C166_level_partial (w : World) (i : Nat) {q : Qty} {f : ℚ} (hu : q.unit.Ok) (hd : q.Denotes f) (hn : ¬q.NoWave) :
    setLevelQ (.fine i) q w = setRef (.fine i) f w ∧ (setLevelQ (.fine i) q w).1.eHz i = f ∧
      Qty.ofHz ((setLevelQ (.fine i) q w).1.eHz i) q.unit = .ok q.mag := by
  have h := (C166_value q f).2 ⟨hd, hn⟩
  have e : setLevelQ (.fine i) q w = (w.setE i f, .ok ()) := by simp only [setLevelQ, h]
  have e2 : (w.setE i f).eHz i = f := by simp [eHz, setE, setLv, upd]
  rw [e]
  exact ⟨rfl, e2, by rw [e2]; exact C166_back hu h⟩

/-- C166: setting the energy of a sublevel in a unit of frequency is setting it to that frequency. -/
theorem C166_sublevel_partial (w : World) {r : Ref} {e : ℚ} (hr : w.refHz r = .ok e) (m k : ℚ) : setLevelQ r ⟨m, .freq k⟩ w = setRef r (m * k) w ∧
    (setLevelQ r ⟨m, .freq k⟩ w).2 = .ok () ∧ (setLevelQ r ⟨m, .freq k⟩ w).1.refHz r = .ok (m * k) := by
  have key : setLevelQ r ⟨m, .freq k⟩ w = setRef r (m * k) w := by
    cases r with
    | fine i => rfl
    | hyp j => simp only [refHz] at hr; simp only [setLevelQ, hr, setRef]
    | zee z => simp only [refHz] at hr; simp only [setLevelQ, hr, setRef]
  obtain ⟨w', δ, h1, h2, -⟩ := C24_rigid w r (m * k) e hr
  rw [key, h1]
  exact ⟨rfl, rfl, h2⟩

/-- C166: the energy of a hyperfine or Zeeman level cannot be set in any other unit: `DimensionalityError`, and nothing changes. -/
theorem C166_sublevel_raises (w : World) {r : Ref} (hf : ∀ i, r ≠ .fine i) {e : ℚ} (hr : w.refHz r = .ok e) {q : Qty} (hq : ∀ k, q.unit ≠ .freq k) :
    setLevelQ r q w = (w, .error .DimensionalityError) := by
  cases r with
  | fine i => exact absurd rfl (hf i)
  | hyp j =>
    simp only [refHz] at hr
    cases h : q.unit with
    | freq k => exact absurd h (hq k)
    | _ => simp only [setLevelQ, hr, h]
  | zee z =>
    simp only [refHz] at hr
    cases h : q.unit with
    | freq k => exact absurd h (hq k)
    | _ => simp only [setLevelQ, hr, h]

/-- C166: a quantity that cannot be converted changes nothing. -/
theorem C166_level_raises (w : World) (i : Nat) {q : Qty} {e : PyErr} (h : q.toHz = .error e) : setLevelQ (.fine i) q w = (w, .error e) := by
  simp only [setLevelQ, h]

/-- C166: assigning the energy of a sublevel whose present energy cannot be computed changes nothing, whatever the unit. -/
theorem C166_no_energy (w : World) {r : Ref} (hf : ∀ i, r ≠ .fine i) {e : PyErr} (hr : w.refHz r = .error e) (q : Qty) :
    setLevelQ r q w = (w, .error e) := by
  cases r with
  | fine i => exact absurd rfl (hf i)
  | hyp j => simp only [refHz] at hr; simp only [setLevelQ, hr]
  | zee z => simp only [refHz] at hr; simp only [setLevelQ, hr]

/-- C166: a level made from quantities is the level made from the frequencies they stand for; if one of them cannot be converted nothing is made. -/
theorem C166_new (w : World) (t : Term) {E A B C : Qty} (g : ℚ) (ali : Option Str) :
    (∀ e a b c, E.toHz = .ok e → A.toHz = .ok a → B.toHz = .ok b → C.toHz = .ok c → newLevelQ t E g A B C ali w = newLevel t e g a b c ali w) ∧
    ((∃ x, E.toHz = .error x ∨ A.toHz = .error x ∨ B.toHz = .error x ∨ C.toHz = .error x) → ∃ x, newLevelQ t E g A B C ali w = (w, .error x)) := by
  have hb : ∀ {α β : Type} (r : Py α) (f : α → PyM β), (PyM.lift r >>= f) w = match r with | .ok a => f a w | .error e => (w, .error e) := by
    intro α β r f
    cases r <;> rfl
  constructor
  · intro e a b c h1 h2 h3 h4
    unfold newLevelQ
    simp only [hb, h1, h2, h3, h4]
  · rintro ⟨x, hx⟩
    unfold newLevelQ
    cases h1 : E.toHz <;> cases h2 : A.toHz <;> cases h3 : B.toHz <;> cases h4 : C.toHz <;> simp_all

/-- C166: the hyperfine constants likewise; a constant given as the wavenumber zero is refused. -/
theorem C166_constants (w : World) (i : Nat) (q : Qty) :
    (∀ f, q.toHz = .ok f → setHfAQ i q w = (w.setLv i { w.lv i with hfA := f }, .ok ()) ∧ setHfBQ i q w = (w.setLv i { w.lv i with hfB := f }, .ok ()) ∧
      setHfCQ i q w = (w.setLv i { w.lv i with hfC := f }, .ok ())) ∧
    (∀ e, q.toHz = .error e → setHfAQ i q w = (w, .error e) ∧ setHfBQ i q w = (w, .error e) ∧ setHfCQ i q w = (w, .error e)) := by
  constructor
  · intro f h
    unfold setHfAQ setHfBQ setHfCQ
    rw [h]
    exact ⟨rfl, rfl, rfl⟩
  · intro e h
    unfold setHfAQ setHfBQ setHfCQ
    rw [h]
    exact ⟨rfl, rfl, rfl⟩

/-- C166: the field takes units of the magnetic field and no others; 1 T is 10000 G. -/
theorem C166_field (w : World) (q : Qty) : (∀ k, q.unit = .field k → setBQ q w = ({ w with B := q.mag * k }, .ok ())) ∧
    ((∀ k, q.unit ≠ .field k) → setBQ q w = (w, .error .DimensionalityError)) ∧ setBQ ⟨1, .field 10000⟩ w = setBQ ⟨10000, .field 1⟩ w := by
  refine ⟨?_, ?_, ?_⟩
  · intro k h
    unfold setBQ Qty.toGauss
    rw [h]
    rfl
  · intro h
    have : q.toGauss = .error .DimensionalityError := by
      unfold Qty.toGauss
      cases hq : q.unit with
      | field k => exact absurd hq (h k)
      | _ => rfl
    unfold setBQ
    rw [this]
    rfl
  · unfold setBQ Qty.toGauss
    norm_num

/-- C166: the frequency of a hyperfine or Zeeman transition can be set in units of frequency; in any other unit, such as a wavelength in nm, it raises and
nothing changes. -/
theorem C166_subtransition (w : World) (σ : Ord') (x : HTr) (y : ZTr) {e e' : ℚ} (hx : w.hFreq x = .ok e) (hy : w.zFreq y = .ok e') (q : Qty) :
    (∀ k, q.unit = .freq k → hSetFreqQ σ x q w = hSetFreq σ x (q.mag * k) w ∧ zSetFreqQ σ y q w = zSetFreq σ y (q.mag * k) w) ∧
    ((∀ k, q.unit ≠ .freq k) → hSetFreqQ σ x q w = (w, .error .DimensionalityError) ∧ zSetFreqQ σ y q w = (w, .error .DimensionalityError)) := by
  constructor
  · intro k h
    simp only [hSetFreqQ, zSetFreqQ, hx, hy, h, and_self]
  · intro h
    cases h' : q.unit with
    | freq k => exact absurd h' (h k)
    | _ => simp only [hSetFreqQ, zSetFreqQ, hx, hy, h', and_self]

/-- C166 fails: a level cannot be put at 0 cm⁻¹. -/
theorem C166_fails : ¬C166_full := by
  intro h
  obtain ⟨w', h1, -⟩ := h (runAll (threeLevels 0 1 2) (emptyAtom 0 0)) (demo_reachable (by decide +kernel)) (.fine 0) 0 (by decide +kernel) ⟨0, .wnum 100⟩ 0
    (by norm_num [UnitQ.Ok]) (by norm_num [Qty.Denotes])
  have h2 := congrArg Prod.snd h1
  rw [show (setLevelQ (.fine 0) ⟨0, .wnum 100⟩ (runAll (threeLevels 0 1 2) (emptyAtom 0 0))).2 = .error .ZeroDivisionError by decide +kernel] at h2
  exact absurd h2 (by simp)

/-- C166 fails for sublevels: the hyperfine level F=0 of the level g cannot be put at 1 cm⁻¹. -/
theorem C166_sublevel_fails : ¬ ∀ w, Reachable w → ∀ j e, w.refHz (.hyp j) = .ok e → ∀ q f, q.unit.Ok → q.Denotes f → ¬q.NoWave →
    (setLevelQ (.hyp j) q w).2 = .ok () := by
  intro h
  have := h (runAll hfOps (emptyAtom (1/2) 0)) ((Reachable.empty _ _).runAll (by decide +kernel)) 0 97 (by decide +kernel) ⟨1, .wnum 100⟩ 29979245800
    (by norm_num [UnitQ.Ok]) (by norm_num [Qty.Denotes]) (by norm_num [Qty.NoWave])
  revert this
  decide +kernel

/-- 500 nm, 20000 cm⁻¹ and 599584.916 GHz are the same; read in nm it is 500. -/
example : (Qty.mk 500 (.length (1 / 10 ^ 9))).toHz = (Qty.mk 20000 (.wnum 100)).toHz ∧
    (Qty.mk 20000 (.wnum 100)).toHz = (Qty.mk (599584916 / 1000) (.freq (10 ^ 9))).toHz ∧ Qty.ofHz 599584916000000 (.length (1 / 10 ^ 9)) = .ok 500 := by
  decide +kernel

/-- Setting the level a to 20000 cm⁻¹. -/
example : (setLevelQ (.fine 1) ⟨20000, .wnum 100⟩ (runAll (threeLevels 0 1 2) (emptyAtom 0 0))).1.eHz 1 = 599584916000000 := by decide +kernel

end AtomTk
