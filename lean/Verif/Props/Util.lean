import Verif.Proofs.Text
import Verif.Proofs.Decimal

/-! # C01-C03: text of quantum numbers (util.py) -/

namespace AtomTk
open Util

/-! ## C01 -/

/-- C01: every half-integer survives printing and reading back, and the printed text is non-empty and contains
neither a space nor `=` (the separators of level names). -/
theorem C01_frac_roundtrip (h : ℚ) (hh : IsHalfInt h) :
    ∃ s, floatToFrac (.num h) = .ok (some s) ∧ fracToFloat (.str s) = .ok (some h) ∧
      s ≠ [] ∧ ' ' ∉ s ∧ '=' ∉ s := by
  refine ⟨numToFrac h, rfl, frac_roundtrip hh, numToFrac_ne hh, ?_, ?_⟩ <;>
  · intro hc
    rcases numToFrac_chars hh _ hc with h | h | h <;> revert h <;> decide

example : IsHalfInt (-7/2) := ⟨-7, by norm_num⟩
example : floatToFrac (.num (-7/2)) = .ok (some "-7/2".toList) := by decide +kernel

/-- C01: different half-integers never print alike. -/
theorem C01_frac_injective (h k : ℚ) (hh : IsHalfInt h) (hk : IsHalfInt k)
    (e : floatToFrac (.num h) = floatToFrac (.num k)) : h = k := by
  simp only [floatToFrac, Except.ok.injEq, Option.some.injEq] at e
  exact numToFrac_inj hh hk e

/-- C01 (why half-integers): outside the half-integers the text is not faithful. -/
theorem C01_frac_nonhalf_collide :
    ∃ a b : ℚ, a ≠ b ∧ floatToFrac (.num a) = floatToFrac (.num b) := ⟨1/3, 1/5, by norm_num, by decide +kernel⟩

/-- C01: `None` and `''` give `None` in both directions, and text is read before it is printed:
`float_to_frac` of a decimal text is `float_to_frac` of its value. -/
theorem C01_none : floatToFrac .none = .ok none ∧ fracToFloat .none = .ok none ∧ fracToFloat (.str []) = .ok none :=
  ⟨rfl, rfl, rfl⟩

theorem decimal_no_slash {s : Str} {x : ℚ} (h : Decimal s x) : '/' ∉ s ∧ s ≠ [] := by
  have key : ∀ {s : Str} {x : ℚ}, UDecimal s x → '/' ∉ s := by
    intro s x h hc
    rcases h.chars.1 _ hc with h | h <;> revert h <;> decide
  cases h with
  | plain h => exact ⟨key h, h.chars.2⟩
  | plus h => exact ⟨by simpa using key h, by simp⟩
  | minus h => exact ⟨by simpa using key h, by simp⟩

/-- C01: a written decimal number, with or without sign and point, is read as that number, the quotient of two as their quotient, and printing a
number written as text prints the number. -/
theorem C01_decimal {s t : Str} {x y : ℚ} (hs : Decimal s x) (ht : Decimal t y) :
    fracToFloat (.str s) = .ok (some x) ∧ floatToFrac (.str s) = floatToFrac (.num x) ∧
    fracToFloat (.str (s ++ '/' :: t)) = if y = 0 then .error .ZeroDivisionError else .ok (some (x / y)) := by
  obtain ⟨h1, h2⟩ := decimal_no_slash hs
  obtain ⟨h3, h4⟩ := decimal_no_slash ht
  refine ⟨?_, ?_, ?_⟩
  · cases s with
    | nil => exact absurd rfl h2
    | cons a l =>
      unfold fracToFloat
      simp only [if_neg h1, pyFloat_decimal hs, bind, Except.bind]
  · simp only [floatToFrac, if_neg h1, pyFloat_decimal hs, bind, Except.bind]
  · have e : ∃ a l, s ++ '/' :: t = a :: l := by
      cases s with
      | nil => exact absurd rfl h2
      | cons a l => exact ⟨a, l ++ '/' :: t, rfl⟩
    obtain ⟨a, l, e⟩ := e
    have hm : '/' ∈ s ++ '/' :: t := by simp
    have hsp : splitOn1 '/' (s ++ '/' :: t) = [s, t] := by
      rw [splitOn1_mid _ _ _ h1, splitOn1_none _ _ h3]
    rw [e] at hm hsp ⊢
    unfold fracToFloat
    simp only [if_pos hm, hsp, pyFloat_decimal hs, pyFloat_decimal ht, bind, Except.bind]

example : Decimal "1.5".toList (3/2) ∧ Decimal "-2".toList (-2) ∧ fracToFloat (.str "1.5/-2".toList) = .ok (some (-3/4)) := by
  refine ⟨Decimal.of "1".toList "5".toList (by decide +kernel), ?_, by decide +kernel⟩
  have := Decimal.minus (UDecimal.whole ['2'] (by unfold AllDigits; decide) (by decide))
  rwa [show (placeVal ['2'] : ℚ) = 2 by decide +kernel] at this

/-- C01: text that is a fraction already is left alone, so that printing twice is printing once. -/
theorem C01_text : (∀ s : Str, '/' ∈ s → floatToFrac (.str s) = .ok (some s)) ∧
    (∀ h : ℚ, IsHalfInt h → ∀ s, floatToFrac (.num h) = .ok (some s) → floatToFrac (.str s) = .ok (some s)) ∧
    ∀ i : Int, floatToFrac (.str (intStr i)) = floatToFrac (.num i) := by
  have hs : ∀ s : Str, '/' ∈ s → floatToFrac (.str s) = .ok (some s) := by
    intro s h
    simp [floatToFrac, h]
  have hi : ∀ i : Int, floatToFrac (.str (intStr i)) = floatToFrac (.num i) := by
    intro i
    have h0 : '/' ∉ intStr i := by
      intro hc
      rcases intStr_chars i _ hc with h | h <;> revert h <;> decide
    simp [floatToFrac, h0, pyFloat_intStr, bind, Except.bind]
  refine ⟨hs, ?_, hi⟩
  intro h hh s e
  simp only [floatToFrac, Except.ok.injEq, Option.some.injEq] at e
  by_cases hc : '/' ∈ s
  · exact hs s hc
  · subst e
    unfold numToFrac at hc
    split_ifs at hc with h1
    · have e1 : numToFrac h = intStr (pyInt h) := by unfold numToFrac; rw [if_pos h1]
      rw [e1, hi]
      show Except.ok (some (numToFrac _)) = _
      rw [numToFrac_int]
    · simp at hc

example : floatToFrac (.str "-7/2".toList) = .ok (some "-7/2".toList) ∧ floatToFrac (.str "3".toList) = .ok (some "3".toList) := by
  decide +kernel

/-! ## C02 -/

/-- C02: number to letter to number is the identity on 0..20. -/
theorem C02_letter_roundtrip (l : Nat) (hl : l < 21) :
    ∃ c, lToLet (.int l) = .ok c ∧ specLetters[l]? = some c ∧ letToL [c] = .ok (some l) := by
  interval_cases l <;> exact ⟨_, rfl, rfl, rfl⟩

example : lToLet (.int 7) = .ok 'K' ∧ letToL ['K'] = .ok (some 7) := by decide

/-- C02: letter to number to letter is the identity on the table. -/
theorem C02_letter_roundtrip' (c : Char) (hc : c ∈ specLetters) :
    ∃ l : Nat, l < 21 ∧ letToL [c] = .ok (some l) ∧ lToLet (.int l) = .ok c := by
  have : ∀ c ∈ specLetters, ∃ l : Fin 21, letToL [c] = .ok (some l.1) ∧ lToLet (.int l.1) = .ok c := by decide
  obtain ⟨l, h1, h2⟩ := this c hc
  exact ⟨l.1, l.2, h1, h2⟩

theorem indexOf_none_iff (c : Char) (s : Str) : indexOf c s = none ↔ c ∉ s := by
  induction s with
  | nil => simp [indexOf]
  | cons a t ih =>
    by_cases h : a = c
    · simp [indexOf, h]
    · simp [indexOf, h, ih, Ne.symm h]

/-- C02: `let_to_l` returns normally exactly on `''` and on one-character strings whose upper case is one of
the 21 letters; on every other string it raises `ValueError`. -/
theorem C02_letToL_domain (s : Str) :
    (s = [] → letToL s = .ok none) ∧
    (∀ c, s = [c] → pyUpper c ∈ specLetters → ∃ l, letToL s = .ok (some l) ∧ l < 21) ∧
    ((s ≠ [] ∧ ∀ c, s = [c] → pyUpper c ∉ specLetters) → letToL s = .error .ValueError) := by
  have e : orbitals = specLetters := rfl
  refine ⟨by rintro rfl; rfl, ?_, ?_⟩
  · rintro c rfl hc
    obtain ⟨l, hl, h, _⟩ := C02_letter_roundtrip' _ hc
    refine ⟨l, ?_, hl⟩
    have h2 : pyUpper (pyUpper c) = pyUpper c := by
      have : ∀ d ∈ specLetters, pyUpper d = d := by decide
      exact this _ hc
    simpa [letToL, h2] using h
  · rintro ⟨h1, h2⟩
    match s, h1, h2 with
    | [c], _, h2 =>
      have := h2 c rfl
      rw [← e, ← indexOf_none_iff] at this
      simp [letToL, this]
    | a :: b :: t, _, _ => rfl

example : letToL ['d'] = .ok (some 2) ∧ letToL ['J'] = .error .ValueError := by decide

/-- C02: the upper-casing accepts exactly the 21 letters, their lower-case forms, and two oddities of Unicode
upper-casing (dotless i as `I`, long s as `S`). -/
theorem C02_letToL_letters (c : Char) :
    pyUpper c ∈ specLetters ↔
      c ∈ specLetters ∨ c ∈ "spdfghiklmnoqrtuvwxyz".toList ∨ c = Char.ofNat 0x131 ∨ c = Char.ofNat 0x17F := by
  have big : ∀ n : Fin 128, pyUpper (Char.ofNat n) ∈ specLetters ↔
      Char.ofNat n ∈ specLetters ∨ Char.ofNat n ∈ "spdfghiklmnoqrtuvwxyz".toList ∨
      Char.ofNat n = Char.ofNat 0x131 ∨ Char.ofNat n = Char.ofNat 0x17F := by decide +kernel
  by_cases h : c.toNat < 128
  · have := big ⟨c.toNat, h⟩
    simpa [Char.ofNat_toNat] using this
  · have hl : ∀ d ∈ specLetters ++ "spdfghiklmnoqrtuvwxyz".toList, d.toNat < 128 := by decide
    have hc : c ∉ specLetters ++ "spdfghiklmnoqrtuvwxyz".toList := fun hc => h (hl c hc)
    simp only [List.mem_append, not_or] at hc
    simp only [hc.1, hc.2, false_or]
    unfold pyUpper
    rw [if_neg (by omega)]
    have e1 : c.toNat = 0x131 ↔ c = Char.ofNat 0x131 := by
      constructor
      · intro h; rw [← h, Char.ofNat_toNat]
      · rintro rfl; rfl
    have e2 : c.toNat = 0x17F ↔ c = Char.ofNat 0x17F := by
      constructor
      · intro h; rw [← h, Char.ofNat_toNat]
      · rintro rfl; rfl
    by_cases h1 : c.toNat = 0x131
    · simp only [if_pos h1]
      exact ⟨fun _ => .inl (e1.1 h1), fun _ => by decide⟩
    · by_cases h2 : c.toNat = 0x17F
      · simp only [if_neg h1, if_pos h2]
        exact ⟨fun _ => .inr (e2.1 h2), fun _ => by decide⟩
      · simp only [if_neg h1, if_neg h2]
        constructor
        · intro h; exact absurd h hc.1
        · rintro (h | h)
          · exact absurd (e1.2 h) h1
          · exact absurd (e2.2 h) h2

/-- C02: a float that is an integer is treated like that integer, a float that is not raises `ValueError`; numpy floats are cut
off to an integer instead; strings raise `TypeError`. -/
theorem C02_floats (q : ℚ) :
    (∀ i : Int, q = i → lToLet (.float q) = lToLet (.int i)) ∧
    ((¬∃ i : Int, q = i) → lToLet (.float q) = .error .ValueError) ∧
    (∀ i : Int, 0 ≤ i → (i : ℚ) ≤ q → q < i + 1 → lToLet (.npfloat q) = lToLet (.int i)) ∧
    (∀ s, lToLet (.str s) = .error .TypeError) := by
  refine ⟨?_, fun h => ?_, fun i h0 h1 h2 => ?_, fun _ => rfl⟩
  · rintro i rfl
    simp [lToLet, pyInt]
  · have : q.den ≠ 1 := fun hd => h ⟨q.num, ((Rat.den_eq_one_iff q).1 hd).symm⟩
    simp [lToLet, this]
  · have hq : (0 : ℚ) ≤ q := le_trans (by exact_mod_cast h0) h1
    have hf : ⌊q⌋ = i := Int.floor_eq_iff.2 ⟨h1, h2⟩
    have : pyInt q = i := by
      unfold pyInt
      rw [Int.tdiv_eq_ediv_of_nonneg (Rat.num_nonneg.2 hq), ← Rat.floor_def', hf]
    simp [lToLet, this]

example : lToLet (.float 2) = .ok 'D' ∧ lToLet (.float (5/2)) = .error .ValueError ∧ lToLet (.npfloat (5/2)) = .ok 'D' := by
  decide +kernel

/-- C02 fails for negative integers: the table is indexed from its end. -/
theorem C02_negative_wraps_fails : ∃ i : Int, (i < 0 ∨ 21 ≤ i) ∧ ∃ c, lToLet (.int i) = .ok c :=
  ⟨-1, by decide, 'Z', by decide⟩

/-- C02 (what holds): integers from 21 up and from -22 down raise `IndexError`; the integers -21..-1 are given
the letter of `21 + i`.  Missing for the full property: an error for -21..-1. -/
theorem C02_letters_partial (i : Int) :
    (21 ≤ i ∨ i < -21 → lToLet (.int i) = .error .IndexError) ∧
    (-21 ≤ i → i < 0 → lToLet (.int i) = lToLet (.int (21 + i)) ∧ ∃ c, lToLet (.int i) = .ok c) := by
  have hlen : orbitals.length = 21 := rfl
  constructor
  · rintro (h | h)
    · simp only [lToLet, pyIndex, hlen]
      rw [if_neg (by omega), if_neg (by omega), List.getElem?_eq_none (by rw [hlen]; omega)]
    · simp only [lToLet, pyIndex, hlen]
      rw [if_pos (by omega)]
  · intro h1 h2
    have key : ∀ n : Fin 21, lToLet (.int (-(n.1 : Int) - 1)) = lToLet (.int (21 + (-(n.1 : Int) - 1))) ∧
        (lToLet (.int (-(n.1 : Int) - 1))).toOption.isSome := by decide
    have := key ⟨(-i - 1).toNat, by omega⟩
    have e : (-((-i - 1).toNat : Int) - 1) = i := by omega
    simp only [e] at this
    refine ⟨this.1, ?_⟩
    have h2 := this.2
    cases hx : lToLet (.int i) with
    | ok c => exact ⟨c, rfl⟩
    | error e => simp [hx, Except.toOption] at h2

example : lToLet (.int (-3)) = .ok 'X' ∧ lToLet (.int 21) = .error .IndexError := by decide

/-! ## C03 -/

/-- C03: the classification, for every term text. -/
theorem C03_coupling (t : Str) :
    (getTermCoupling t = .LK ↔ '[' ∈ t ∧ ∃ c r, t = c :: r ∧ c ∈ specLetters) ∧
    (getTermCoupling t = .JK ↔ '[' ∈ t ∧ ∀ c r, t = c :: r → c ∉ specLetters) ∧
    (getTermCoupling t = .JJ ↔ '[' ∉ t ∧ '(' ∈ t) ∧
    (getTermCoupling t = .LS ↔ '[' ∉ t ∧ '(' ∉ t ∧ 2 ≤ t.length) ∧
    (getTermCoupling t = .unknown ↔ '[' ∉ t ∧ '(' ∉ t ∧ t.length < 2) := by
  have e : orbitals = specLetters := rfl
  unfold getTermCoupling
  rw [e]
  by_cases h1 : '[' ∈ t
  · cases t with
    | nil => simp at h1
    | cons c r =>
      by_cases h2 : c ∈ specLetters <;> simp [h1, h2]
  · by_cases h2 : '(' ∈ t
    · simp [h1, h2]
    · by_cases h3 : 2 ≤ t.length
      · have : 1 < t.length := by omega
        have h4 : ¬ t.length < 2 := by omega
        simp [h1, h2, this, h3, h4]
      · have : ¬ 1 < t.length := by omega
        have h4 : t.length < 2 := by omega
        simp [h1, h2, this, h3, h4]

example : getTermCoupling "F* 2[7/2]".toList = .LK ∧ getTermCoupling "3[3/2]*".toList = .JK ∧
    getTermCoupling "(7/2,1/2)".toList = .JJ ∧ getTermCoupling "2S".toList = .LS ∧
    getTermCoupling "*".toList = .unknown := by decide

end AtomTk
