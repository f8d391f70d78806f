import Verif.Model.Wavelength
import Verif.Props.Enforce
import Verif.Props.Energies
import Mathlib.Tactic.LinearCombination
import Mathlib.Tactic.FieldSimp

/-! # C133: wavelengths -/

namespace AtomTk
open World

/-- The full claim: every transition has a positive wavelength, and wavelength times frequency is the speed of light. -/
def C133_full : Prop := ∀ (w : World) (t : Nat), Reachable w → InAtom w t →
  ∃ l, w.wl t = .ok l ∧ 0 < l ∧ l / 10 ^ 9 * w.freqHz t = 299792458

theorem hzToNm_ok {f l : ℚ} : hzToNm f = .ok l ↔ f ≠ 0 ∧ l / 10 ^ 9 * f = 299792458 := by
  unfold hzToNm pyDiv cLight
  by_cases h : f = 0
  · subst h; simp
  · rw [if_neg h, Except.ok.injEq]
    constructor
    · rintro rfl
      exact ⟨h, by field_simp⟩
    · rintro ⟨-, e⟩
      rw [div_eq_iff h]
      linear_combination (-(10 ^ 9 : ℚ)) * e

/-- C133: a transition between levels of different energies has a positive wavelength, which times its frequency gives the speed of
light. -/
theorem C133_product_partial (w : World) (t : Nat) (hne : w.eHz (w.tr t).e1 ≠ w.eHz (w.tr t).e2) :
    ∃ l, w.wl t = .ok l ∧ 0 < l ∧ l / 10 ^ 9 * w.freqHz t = 299792458 := by
  obtain ⟨h0, -, hz⟩ := C26_distance w t
  have hf : 0 < w.freqHz t := lt_of_le_of_ne h0 (fun e => hne (hz.1 e.symm))
  refine ⟨299792458 * 10 ^ 9 / w.freqHz t, hzToNm_ok.2 ⟨hf.ne', ?_⟩, by positivity, ?_⟩ <;> field_simp

/-- C133: between levels of the same energy (such as a level and itself) asking for the wavelength raises. -/
theorem C133_raises (w : World) (t : Nat) (h : w.eHz (w.tr t).e1 = w.eHz (w.tr t).e2) :
    w.wl t = .error .ZeroDivisionError := by
  unfold wl hzToNm pyDiv
  rw [if_pos ((C26_distance w t).2.2.2 h)]

/-- C133: the larger of two frequencies has the shorter wavelength. -/
theorem C133_order (w w' : World) (t t' : Nat) {l l' : ℚ} (h : w.wl t = .ok l) (h' : w'.wl t' = .ok l') :
    w.freqHz t < w'.freqHz t' ↔ l' < l := by
  obtain ⟨n, e⟩ := hzToNm_ok.1 h
  obtain ⟨n', e'⟩ := hzToNm_ok.1 h'
  have p : 0 < w.freqHz t := lt_of_le_of_ne (C26_distance w t).1 n.symm
  have p' : 0 < w'.freqHz t' := lt_of_le_of_ne (C26_distance w' t').1 n'.symm
  have el : l = 299792458 * 10 ^ 9 / w.freqHz t := by rw [eq_div_iff n]; linear_combination (10 ^ 9 : ℚ) * e
  have el' : l' = 299792458 * 10 ^ 9 / w'.freqHz t' := by rw [eq_div_iff n']; linear_combination (10 ^ 9 : ℚ) * e'
  rw [el, el', div_lt_div_iff_of_pos_left (by norm_num) p' p]

/-- C133 (Ritz): where three levels lie one above the other, the inverse wavelengths of the two steps add up to that of the whole. -/
theorem C133_ritz (w : World) (i j k s t u : Nat) {ls lt lu : ℚ} (hs : (w.tr s).e1 = i ∧ (w.tr s).e2 = j)
    (ht : (w.tr t).e1 = j ∧ (w.tr t).e2 = k) (hu : (w.tr u).e1 = i ∧ (w.tr u).e2 = k) (hij : w.eHz i ≤ w.eHz j)
    (hjk : w.eHz j ≤ w.eHz k) (h1 : w.wl s = .ok ls) (h2 : w.wl t = .ok lt) (h3 : w.wl u = .ok lu) :
    1 / lu = 1 / ls + 1 / lt := by
  have inv : ∀ {x : Nat} {l : ℚ}, w.wl x = .ok l → 1 / l = w.freqHz x / (299792458 * 10 ^ 9) := by
    intro x l h
    obtain ⟨n, e⟩ := hzToNm_ok.1 h
    have hl : l ≠ 0 := by rintro rfl; norm_num at e
    rw [div_eq_div_iff hl (by norm_num)]
    linear_combination (-(10 ^ 9 : ℚ)) * e
  rw [inv h1, inv h2, inv h3, ← add_div]
  congr 1
  unfold freqHz
  rw [hs.1, hs.2, ht.1, ht.2, hu.1, hu.2, abs_of_nonpos (by linarith), abs_of_nonpos (by linarith), abs_of_nonpos (by linarith)]
  ring

/-- C133: the same for hyperfine and Zeeman transitions. -/
theorem C133_sub (w : World) : (∀ (x : HTr) (f l : ℚ), w.hFreq x = .ok f → (w.hWl x = .ok l ↔ f ≠ 0 ∧ l / 10 ^ 9 * f = 299792458)) ∧
    (∀ (x : HTr), w.hFreq x = .ok 0 → w.hWl x = .error .ZeroDivisionError) ∧
    (∀ (x : ZTr) (f l : ℚ), w.zFreq x = .ok f → (w.zWl x = .ok l ↔ f ≠ 0 ∧ l / 10 ^ 9 * f = 299792458)) ∧
    (∀ (x : ZTr), w.zFreq x = .ok 0 → w.zWl x = .error .ZeroDivisionError) := by
  refine ⟨fun x f l h => ?_, fun x h => ?_, fun x f l h => ?_, fun x h => ?_⟩
  · rw [← hzToNm_ok]; unfold hWl; rw [h]; rfl
  · unfold hWl; rw [h]; rfl
  · rw [← hzToNm_ok]; unfold zWl; rw [h]; rfl
  · unfold zWl; rw [h]; rfl

/-- C133: a wavelength or wavenumber other than zero is converted into the frequency belonging to it; zero raises; a frequency
is taken as it is. -/
theorem C133_units (q : ℚ) :
    (q ≠ 0 → ∃ f, (FreqQ.nm q).toHz = .ok f ∧ q / 10 ^ 9 * f = 299792458) ∧
    (q ≠ 0 → ∃ f, (FreqQ.icm q).toHz = .ok f ∧ f = 299792458 * (100 * q)) ∧
    (FreqQ.nm 0).toHz = .error .ZeroDivisionError ∧ (FreqQ.icm 0).toHz = .error .ZeroDivisionError ∧
    (FreqQ.hz q).toHz = .ok q := by
  refine ⟨fun h => ⟨299792458 * 10 ^ 9 / q, ?_, by field_simp⟩, fun h => ⟨_, ?_, rfl⟩, by decide +kernel, by decide +kernel, rfl⟩
  · simp only [FreqQ.toHz, pyDiv, if_neg h, cLight]
  · have h1 : (1 : ℚ) / q ≠ 0 := one_div_ne_zero h
    have : (FreqQ.icm q).toHz = pyDiv (cLight * 100) (1 / q) := by
      simp only [FreqQ.toHz, pyDiv, if_neg h]; rfl
    rw [this]
    simp only [pyDiv, if_neg h1, cLight, Except.ok.injEq]
    field_simp

/-- C133: a transition set by its wavelength reads back that wavelength, wherever setting its frequency takes effect (see C37). -/
theorem C133_set_nm {w : World} {σ : Ord'} {t : Nat} {l f : ℚ} (hl : (FreqQ.nm l).toHz = .ok f)
    (heff : (setFrequency σ t f w).1.freqHz t = f) : (setFrequency σ t f w).1.wl t = .ok l := by
  have hl0 : l ≠ 0 := by
    rintro rfl
    rw [(C133_units 0).2.2.1] at hl
    cases hl
  obtain ⟨f', h1, h2⟩ := (C133_units l).1 hl0
  rw [hl] at h1
  cases h1
  refine hzToNm_ok.2 ?_
  rw [heff]
  refine ⟨?_, h2⟩
  rintro rfl
  norm_num at h2

/-- C133: setting a transition to a wavelength in an atom with no pinned level and no loop of set frequencies: the wavelength is
read back. -/
theorem C133_set_partial {w : World} (hr : Reachable w) {σ : Ord'} (hσ : Shuffles σ) {t : Nat} {l f : ℚ} (hl : 0 < l)
    (hlf : (FreqQ.nm l).toHz = .ok f) (ht : InAtom w t) (hloop : LoopFree (withFreq w t f) (GroupOf w t f))
    (hpos : ∀ n m t' f', SetEdge w n m t' f' → 0 ≤ f')
    (hun : ∀ i, InX w (GroupOf w t f) i → (w.lv i).fixed = false) :
    ∃ w', setFrequency σ t f w = (w', .ok ()) ∧ w'.wl t = .ok l := by
  obtain ⟨f', h1, h2⟩ := (C133_units l).1 hl.ne'
  rw [hlf] at h1
  cases h1
  have hf : 0 < f := by
    by_contra hc
    have : l / 10 ^ 9 * f ≤ 0 := mul_nonpos_of_nonneg_of_nonpos (by positivity) (not_lt.1 hc)
    rw [h2] at this
    norm_num at this
  obtain ⟨w', h, e, -⟩ := C37_first_partial hr hσ ht hf.le hloop hpos hun
  refine ⟨w', h, ?_⟩
  have := C133_set_nm (σ := σ) (w := w) (t := t) hlf (by rw [h]; exact e)
  rwa [h] at this

/-- C133 fails: two different levels of the same energy may be joined by a transition, and then there is no wavelength. -/
theorem C133_fails : ¬C133_full := by
  intro h
  have hr : Reachable (runAll (threeLevels 0 1 1 ++ [.newTrans 1 2 none .none none]) (emptyAtom 0 0)) := demo_reachable (by decide +kernel)
  obtain ⟨l, h1, -⟩ := h _ 0 hr (by decide +kernel)
  rw [C133_raises _ _ (by decide +kernel)] at h1
  cases h1

/-- The chain g-a-b with g-a set to 500 nm. -/
example : ∃ w', setFrequency idOrd 0 (299792458 * 10 ^ 9 / 500) (chain 1 7) = (w', .ok ()) ∧ w'.wl 0 = .ok 500 :=
  C133_set_partial (w := chain 1 7) (demo_reachable (by decide +kernel)) idOrd_shuffles (by norm_num) (by decide +kernel)
    (by decide +kernel) (loopFree_of_parent chainPar chainRk (by decide +kernel) _)
    (fun n m t f he => forall_setEdge (w := chain 1 7) (P := fun _ _ _ f => 0 ≤ f) (by decide +kernel) he)
    (fun i hi => forall_level (w := chain 1 7) (P := fun i => ((chain 1 7).lv i).fixed = false) (by decide +kernel) hi)

/-- Three levels at 0, 1, 3 with all three transitions: the inverse wavelengths add up. -/
example : let w := runAll (threeLevels 0 1 3 ++ [.newTrans 0 1 none .none none, .newTrans 1 2 none .none none,
      .newTrans 0 2 none .none none]) (emptyAtom 0 0)
    w.wl 0 = .ok (299792458 * 10 ^ 9) ∧ w.wl 1 = .ok (299792458 * 10 ^ 9 / 2) ∧ w.wl 2 = .ok (299792458 * 10 ^ 9 / 3) := by
  decide +kernel

end AtomTk
