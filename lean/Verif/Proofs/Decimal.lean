import Verif.Proofs.Text
import Verif.Spec.Decimal
import Mathlib.Tactic.FieldSimp
import Mathlib.Tactic.Ring

/-! # `float(...)` reads written numbers -/

namespace AtomTk

theorem digit_facts {c : Char} (h : c ∈ ['0', '1', '2', '3', '4', '5', '6', '7', '8', '9']) :
    isDig c = true ∧ c.toNat - 48 = digitVal c := by
  have : ∀ c ∈ ['0', '1', '2', '3', '4', '5', '6', '7', '8', '9'], isDig c = true ∧ c.toNat - 48 = digitVal c := by decide
  exact this c h

theorem AllDigits.dig {s : Str} (h : AllDigits s) : ∀ c ∈ s, isDig c = true := fun c hc => (digit_facts (h c hc)).1

theorem natVal_place {s : Str} (h : AllDigits s) : natVal s = placeVal s := by
  have key : ∀ (s : Str) (a : ℕ), AllDigits s → s.foldl (fun a c => 10 * a + (c.toNat - 48)) a = a * 10 ^ s.length + placeVal s := by
    intro s
    induction s with
    | nil => intro a _; simp [placeVal]
    | cons c t ih =>
      intro a hs
      rw [List.foldl_cons, ih _ fun d hd => hs d (List.mem_cons_of_mem _ hd), (digit_facts (hs c List.mem_cons_self)).2]
      simp only [placeVal, List.length_cons, pow_succ]
      ring
  unfold natVal
  rw [key s 0 h]
  simp

theorem placeVal_append (a b : Str) : placeVal (a ++ b) = placeVal a * 10 ^ b.length + placeVal b := by
  induction a with
  | nil => simp [placeVal]
  | cons c t ih =>
    simp only [List.cons_append, placeVal, ih, List.length_append, pow_add]
    ring

theorem parseUDec_spec {s : Str} {x : ℚ} (h : UDecimal s x) : parseUDec s = some x := by
  cases h with
  | whole _ h hn =>
    rw [parseUDec_digits s h.dig hn, natVal_place h]
  | point a b ha hb hn =>
    have hdot : isDig '.' = false := by decide
    have e1 : (a ++ '.' :: b).takeWhile isDig = a := by
      rw [List.takeWhile_append_of_pos ha.dig]
      simp [hdot]
    have e2 : (a ++ '.' :: b).dropWhile isDig = '.' :: b := by
      rw [List.dropWhile_append_of_pos ha.dig]
      simp [hdot]
    unfold parseUDec
    simp only [e1, e2]
    have c1 : b.all isDig = true := List.all_eq_true.2 hb.dig
    have c2 : (a.isEmpty && b.isEmpty) = false := by
      cases a with
      | cons _ _ => rfl
      | nil =>
        cases b with
        | cons _ _ => rfl
        | nil => exact absurd rfl hn
    rw [c1, c2]
    simp only [Bool.not_false, Bool.and_self, if_true, Option.some.injEq]
    rw [natVal_place ha, natVal_place hb, placeVal_append]
    have : (10 : ℚ) ^ b.length ≠ 0 := by positivity
    push_cast
    field_simp

theorem UDecimal.chars {s : Str} {x : ℚ} (h : UDecimal s x) : (∀ c ∈ s, isDig c = true ∨ c = '.') ∧ s ≠ [] := by
  cases h with
  | whole _ h hn => exact ⟨fun c hc => .inl (h.dig c hc), hn⟩
  | point a b ha hb hn =>
    refine ⟨fun c hc => ?_, by simp⟩
    rcases List.mem_append.1 hc with hc | hc
    · exact .inl (ha.dig c hc)
    · rcases List.mem_cons.1 hc with hc | hc
      · exact .inr hc
      · exact .inl (hb.dig c hc)

theorem UDecimal.nospc {s : Str} {x : ℚ} (h : UDecimal s x) : ∀ c ∈ s, isSpc c = false := by
  intro c hc
  rcases h.chars.1 c hc with h | rfl
  · exact isDig_not_spc h
  · decide

/-- `float(text)` is the number written. -/
theorem pyFloat_decimal {s : Str} {x : ℚ} (h : Decimal s x) : pyFloat s = .ok x := by
  unfold pyFloat
  cases h with
  | plain h =>
    rw [stripBy_none _ _ h.nospc]
    obtain ⟨hc, hn⟩ := h.chars
    have hp := parseUDec_spec h
    cases s with
    | nil => exact absurd rfl hn
    | cons a t =>
      have ha := hc a List.mem_cons_self
      have h1 : a ≠ '-' := by rintro rfl; revert ha; decide
      have h2 : a ≠ '+' := by rintro rfl; revert ha; decide
      split
      · rename_i heq; simp at heq; exact absurd heq.1 h1
      · rename_i heq; simp at heq; exact absurd heq.1 h2
      · simp [hp]
  | @plus s _ h =>
    rw [stripBy_none]
    · simp [parseUDec_spec h]
    · intro c hc
      rcases List.mem_cons.1 hc with rfl | hc
      · decide
      · exact h.nospc c hc
  | @minus s _ h =>
    rw [stripBy_none]
    · simp [parseUDec_spec h]
    · intro c hc
      rcases List.mem_cons.1 hc with rfl | hc
      · decide
      · exact h.nospc c hc

theorem stripBy_pad (p : Char → Bool) (a t b : Str) (ha : ∀ c ∈ a, p c = true) (hb : ∀ c ∈ b, p c = true) (ht : ∀ c ∈ t, p c = false) :
    stripBy p (a ++ t ++ b) = t := by
  unfold stripBy
  rw [List.append_assoc, List.dropWhile_append_of_pos ha]
  cases t with
  | nil =>
    rw [List.nil_append, dropWhile_all p b hb]
    rfl
  | cons x t =>
    have e1 : (x :: t ++ b).dropWhile p = x :: t ++ b := by
      rw [List.cons_append, List.dropWhile_cons, if_neg (by rw [ht x List.mem_cons_self]; decide)]
    rw [e1, List.reverse_append, List.dropWhile_append_of_pos (by simpa using hb), dropWhile_none p _ (fun c hc => ht c (List.mem_reverse.1 hc)),
      List.reverse_reverse]

/-- Blanks around the number do not matter. -/
theorem pyFloat_blanks {a t b : Str} {x : ℚ} (ha : ∀ c ∈ a, c = ' ') (hb : ∀ c ∈ b, c = ' ') (h : Decimal t x) :
    pyFloat (a ++ t ++ b) = .ok x := by
  have hn : ∀ c ∈ t, isSpc c = false := by
    intro c hc
    cases h with
    | plain h => exact h.nospc c hc
    | plus h =>
      rcases List.mem_cons.1 hc with rfl | hc
      · decide
      · exact h.nospc c hc
    | minus h =>
      rcases List.mem_cons.1 hc with rfl | hc
      · decide
      · exact h.nospc c hc
  have e := pyFloat_decimal h
  unfold pyFloat at e ⊢
  rw [stripBy_none _ _ hn] at e
  rw [stripBy_pad isSpc a t b (fun c hc => by rw [ha c hc]; decide) (fun c hc => by rw [hb c hc]; decide) hn]
  exact e

/-- With a decidable description, for concrete texts. -/
theorem Decimal.of {s : Str} {x : ℚ} (a b : Str) (h : (∀ c ∈ a ++ b, c ∈ ['0', '1', '2', '3', '4', '5', '6', '7', '8', '9']) ∧ a ++ b ≠ [] ∧
    s = a ++ '.' :: b ∧ x = placeVal (a ++ b) / 10 ^ b.length) : Decimal s x := by
  obtain ⟨h1, h2, rfl, rfl⟩ := h
  exact .plain (.point a b (fun c hc => h1 c (List.mem_append_left _ hc)) (fun c hc => h1 c (List.mem_append_right _ hc)) h2)

end AtomTk
