import Verif.Model.Util
import Verif.Spec.Basic
import Mathlib.Tactic.Ring
import Mathlib.Tactic.NormNum
import Mathlib.Tactic.Linarith
import Mathlib.Tactic.IntervalCases

/-! # Lemmas on digits, decimal text and fractions -/

namespace AtomTk
open Util

theorem digitChr_toNat {d : Nat} (h : d < 10) : (digitChr d).toNat = 48 + d := by
  interval_cases d <;> rfl

theorem isDig_digitChr {d : Nat} (h : d < 10) : isDig (digitChr d) = true := by
  simp [isDig, digitChr_toNat h]; omega

theorem natVal_append (s : Str) (c : Char) : natVal (s ++ [c]) = 10 * natVal s + (c.toNat - 48) := by
  simp [natVal]

theorem natStrF_val (f n : Nat) (h : n ≤ f) : natVal (natStrF f n) = n := by
  induction f generalizing n with
  | zero =>
    have : n = 0 := by omega
    subst this; rfl
  | succ f ih =>
    unfold natStrF
    split
    · rename_i h10
      simp [natVal, digitChr_toNat h10]
    · rw [natVal_append, ih _ (by omega), digitChr_toNat (Nat.mod_lt _ (by norm_num))]
      omega

theorem natStrF_dig (f n : Nat) : ∀ c ∈ natStrF f n, isDig c = true := by
  induction f generalizing n with
  | zero =>
    intro c hc
    simp [natStrF] at hc
    subst hc; exact isDig_digitChr (Nat.mod_lt _ (by norm_num))
  | succ f ih =>
    intro c hc
    unfold natStrF at hc
    split at hc
    · rename_i h10
      simp at hc; subst hc; exact isDig_digitChr h10
    · simp at hc
      rcases hc with hc | hc
      · exact ih _ c hc
      · subst hc; exact isDig_digitChr (Nat.mod_lt _ (by norm_num))

theorem natStrF_ne (f n : Nat) : natStrF f n ≠ [] := by
  cases f <;> simp [natStrF]
  split <;> simp

theorem natStr_val (n : Nat) : natVal (natStr n) = n := natStrF_val n n le_rfl
theorem natStr_dig (n : Nat) : ∀ c ∈ natStr n, isDig c = true := natStrF_dig n n
theorem natStr_ne (n : Nat) : natStr n ≠ [] := natStrF_ne n n

theorem takeWhile_all {α} (p : α → Bool) (l : List α) (h : ∀ c ∈ l, p c = true) : l.takeWhile p = l := by
  induction l with
  | nil => rfl
  | cons a t ih => simp [h a (by simp), ih (fun c hc => h c (by simp [hc]))]

theorem dropWhile_all {α} (p : α → Bool) (l : List α) (h : ∀ c ∈ l, p c = true) : l.dropWhile p = [] := by
  induction l with
  | nil => rfl
  | cons a t ih => simp [h a (by simp), ih (fun c hc => h c (by simp [hc]))]

theorem dropWhile_none {α} (p : α → Bool) (l : List α) (h : ∀ c ∈ l, p c = false) : l.dropWhile p = l := by
  cases l with
  | nil => rfl
  | cons a t => simp [h a (by simp)]

theorem stripBy_none (p : Char → Bool) (s : Str) (h : ∀ c ∈ s, p c = false) : stripBy p s = s := by
  unfold stripBy
  rw [dropWhile_none p s h, dropWhile_none p _ (by simpa using h), List.reverse_reverse]

theorem parseUDec_digits (s : Str) (h : ∀ c ∈ s, isDig c = true) (hn : s ≠ []) :
    parseUDec s = some (natVal s : ℚ) := by
  unfold parseUDec
  rw [takeWhile_all _ _ h, dropWhile_all _ _ h]
  simp [hn]

theorem isDig_not_spc {c : Char} (h : isDig c = true) : isSpc c = false := by
  simp only [isDig, Bool.and_eq_true, decide_eq_true_eq] at h
  simp only [isSpc, Bool.or_eq_false_iff, beq_eq_false_iff_ne]
  refine ⟨⟨⟨?_, ?_⟩, ?_⟩, ?_⟩ <;> (rintro rfl; revert h; decide)

theorem isDig_ne {c d : Char} (h : isDig c = true) (hd : isDig d = false) : c ≠ d := by
  rintro rfl; simp [h] at hd

/-- `float(digits)`. -/
theorem pyFloat_digits (s : Str) (h : ∀ c ∈ s, isDig c = true) (hn : s ≠ []) :
    pyFloat s = .ok (natVal s : ℚ) := by
  unfold pyFloat
  rw [stripBy_none _ _ (fun c hc => isDig_not_spc (h c hc))]
  cases s with
  | nil => exact absurd rfl hn
  | cons a t =>
    have ha := h a (by simp)
    have h1 : a ≠ '-' := isDig_ne ha (by decide)
    have h2 : a ≠ '+' := isDig_ne ha (by decide)
    have := parseUDec_digits (a :: t) h hn
    split
    · rename_i heq; simp at heq; exact absurd heq.1 h1
    · rename_i heq; simp at heq; exact absurd heq.1 h2
    · simp [this]

theorem pyFloat_natStr (n : Nat) : pyFloat (natStr n) = .ok (n : ℚ) := by
  rw [pyFloat_digits _ (natStr_dig n) (natStr_ne n), natStr_val]

/-- `float("-" + digits)`. -/
theorem pyFloat_neg (s : Str) (h : ∀ c ∈ s, isDig c = true) (hn : s ≠ []) :
    pyFloat ('-' :: s) = .ok (-(natVal s : ℚ)) := by
  unfold pyFloat
  rw [stripBy_none]
  · simp [parseUDec_digits s h hn]
  · intro c hc
    simp at hc
    rcases hc with rfl | hc
    · decide
    · exact isDig_not_spc (h c hc)

theorem pyFloat_intStr (i : Int) : pyFloat (intStr i) = .ok (i : ℚ) := by
  cases i with
  | ofNat n => simpa [intStr] using pyFloat_natStr n
  | negSucc n =>
    rw [intStr, pyFloat_neg _ (natStr_dig _) (natStr_ne _), natStr_val]
    simp [Int.negSucc_eq]

theorem intStr_ne (i : Int) : intStr i ≠ [] := by
  cases i <;> simp [intStr, natStr_ne]

theorem intStr_chars (i : Int) : ∀ c ∈ intStr i, isDig c = true ∨ c = '-' := by
  intro c hc
  cases i with
  | ofNat n => exact .inl (natStr_dig n c hc)
  | negSucc n =>
    simp [intStr] at hc
    rcases hc with rfl | hc
    · exact .inr rfl
    · exact .inl (natStr_dig _ c hc)

theorem slash_not_mem_intStr (i : Int) : '/' ∉ intStr i := by
  intro h
  rcases intStr_chars i _ h with h | h <;> revert h <;> decide

theorem pyInt_intCast (k : ℤ) : pyInt (k : ℚ) = k := by simp [pyInt]

theorem splitOn1_none (c : Char) (s : Str) (h : c ∉ s) : splitOn1 c s = [s] := by
  induction s with
  | nil => rfl
  | cons a t ih =>
    simp at h
    simp [splitOn1, ih h.2, Ne.symm h.1]

theorem splitOn1_mid (c : Char) (s t : Str) (h : c ∉ s) : splitOn1 c (s ++ c :: t) = s :: splitOn1 c t := by
  induction s with
  | nil => simp [splitOn1]
  | cons a r ih =>
    simp at h
    simp [splitOn1, ih h.2, Ne.symm h.1]

theorem pyMod_half_even (m : ℤ) : pyMod (2 * ((2 * m : ℤ) / 2 : ℚ)) 2 = 0 := by
  unfold pyMod
  have : (2 * (((2 * m : ℤ) : ℚ) / 2)) / 2 = (m : ℚ) := by push_cast; ring
  rw [this, Int.floor_intCast]; push_cast; ring

theorem pyMod_half_odd (m : ℤ) : pyMod (2 * (((2 * m + 1 : ℤ) : ℚ) / 2)) 2 ≠ 0 := by
  unfold pyMod
  have : (2 * (((2 * m + 1 : ℤ) : ℚ) / 2)) / 2 = (m : ℚ) + 1 / 2 := by push_cast; ring
  rw [this]
  have h2 : ⌊(m : ℚ) + 1 / 2⌋ = m := by
    rw [Int.floor_eq_iff]; constructor <;> linarith
  rw [h2]; push_cast; ring_nf; norm_num

theorem numToFrac_even (m : ℤ) : numToFrac (((2 * m : ℤ) : ℚ) / 2) = intStr m := by
  unfold numToFrac
  rw [if_pos (pyMod_half_even m)]
  have : (((2 * m : ℤ) : ℚ) / 2) = (m : ℚ) := by push_cast; ring
  rw [this, pyInt_intCast]

theorem numToFrac_int (m : ℤ) : numToFrac (m : ℚ) = intStr m := by
  rw [← numToFrac_even]; congr 1; push_cast; ring

theorem numToFrac_odd (m : ℤ) :
    numToFrac (((2 * m + 1 : ℤ) : ℚ) / 2) = intStr (2 * m + 1) ++ ['/', '2'] := by
  unfold numToFrac
  rw [if_neg (pyMod_half_odd m)]
  have : (((2 * m + 1 : ℤ) : ℚ) / 2) * 2 = ((2 * m + 1 : ℤ) : ℚ) := by ring
  rw [this, pyInt_intCast]

theorem fracToFloat_intStr (i : Int) : fracToFloat (.str (intStr i)) = .ok (some (i : ℚ)) := by
  have hn := intStr_ne i
  have hs := slash_not_mem_intStr i
  have hf := pyFloat_intStr i
  generalize intStr i = s at hn hs hf
  cases s with
  | nil => exact absurd rfl hn
  | cons a t => simp [fracToFloat, hs, hf]; rfl

theorem fracToFloat_halfStr (i : Int) :
    fracToFloat (.str (intStr i ++ ['/', '2'])) = .ok (some ((i : ℚ) / 2)) := by
  have hn := intStr_ne i
  have hs := slash_not_mem_intStr i
  have hf := pyFloat_intStr i
  generalize intStr i = s at hn hs hf
  cases s with
  | nil => exact absurd rfl hn
  | cons a t =>
    have hsp : splitOn1 '/' (a :: (t ++ ['/', '2'])) = [a :: t, ['2']] := by
      have := splitOn1_mid '/' (a :: t) ['2'] hs
      simpa [splitOn1] using this
    have h2 : pyFloat ['2'] = .ok (2 : ℚ) := by
      have := pyFloat_natStr 2
      have e : natStr 2 = ['2'] := by decide
      rw [e] at this
      simpa using this
    simp only [fracToFloat, List.cons_append]
    rw [hsp, if_pos (by simp)]
    simp only [hf, h2]
    simp [bind, Except.bind]

/-- Every half-integer is `m` or `m + 1/2`. -/
theorem IsHalfInt.cases {q : ℚ} (h : IsHalfInt q) :
    (∃ m : ℤ, q = ((2 * m : ℤ) : ℚ) / 2) ∨ (∃ m : ℤ, q = ((2 * m + 1 : ℤ) : ℚ) / 2) := by
  obtain ⟨n, rfl⟩ := h
  rcases Int.even_or_odd' n with ⟨m, rfl | rfl⟩
  · exact .inl ⟨m, rfl⟩
  · exact .inr ⟨m, rfl⟩

theorem frac_roundtrip {q : ℚ} (h : IsHalfInt q) : fracToFloat (.str (numToFrac q)) = .ok (some q) := by
  rcases h.cases with ⟨m, rfl⟩ | ⟨m, rfl⟩
  · rw [numToFrac_even, fracToFloat_intStr]; congr 2; push_cast; ring
  · rw [numToFrac_odd, fracToFloat_halfStr]

theorem numToFrac_chars {q : ℚ} (h : IsHalfInt q) :
    ∀ c ∈ numToFrac q, isDig c = true ∨ c = '-' ∨ c = '/' := by
  intro c hc
  rcases h.cases with ⟨m, rfl⟩ | ⟨m, rfl⟩
  · rw [numToFrac_even] at hc
    rcases intStr_chars _ _ hc with h | h
    · exact .inl h
    · exact .inr (.inl h)
  · rw [numToFrac_odd] at hc
    simp at hc
    rcases hc with hc | hc | hc
    · rcases intStr_chars _ _ hc with h | h
      · exact .inl h
      · exact .inr (.inl h)
    · exact .inr (.inr hc)
    · subst hc; exact .inl (by decide)

theorem numToFrac_ne {q : ℚ} (h : IsHalfInt q) : numToFrac q ≠ [] := by
  rcases h.cases with ⟨m, rfl⟩ | ⟨m, rfl⟩
  · rw [numToFrac_even]; exact intStr_ne _
  · rw [numToFrac_odd]; simp

theorem numToFrac_inj {p q : ℚ} (hp : IsHalfInt p) (hq : IsHalfInt q) (h : numToFrac p = numToFrac q) :
    p = q := by
  have h1 := frac_roundtrip hp
  rw [h, frac_roundtrip hq] at h1
  simpa using h1.symm

end AtomTk
