import Verif.Proofs.Parse
import Verif.Proofs.Sort
import Verif.Model.Term

/-! # C08-C12: terms and multi-terms (term.py) -/

namespace AtomTk
open Util

/-- `t'` is obtained from `t` by finitely many successful `make_term_copy` calls. -/
inductive Copies : Term → Term → Prop
  | refl (t) : Copies t t
  | step {t u v : Term} (F mF : FArg) : Copies t u → u.makeCopy F mF = .ok v → Copies t v

theorem fracToFloat_argOf (x : Option ℚ) : fracToFloat (Term.argOf x) = .ok x := by cases x <;> rfl

theorem fracToFloat_num (q : ℚ) : fracToFloat (.num q) = .ok (some q) := rfl

theorem makeCopy_ok {t u : Term} {F mF : FArg} (h : t.makeCopy F mF = .ok u) :
    ∃ f m, fracToFloat mF = .ok m ∧ (t.F = none → fracToFloat F = .ok f) ∧
      u = ⟨t.conf, t.term, t.J, (if t.F = none then f else t.F), m, t.percentage, t.qn⟩ := by
  unfold Term.makeCopy at h
  cases hF : t.F with
  | some f =>
    rw [hF] at h
    simp only [Term.mk', fracToFloat_argOf, bind, Except.bind] at h
    cases hm : fracToFloat mF with
    | error e => simp [hm, fracToFloat_num] at h
    | ok m =>
      simp [hm, fracToFloat_num] at h
      exact ⟨none, m, rfl, by simp, by simp [h]⟩
  | none =>
    rw [hF] at h
    simp only [Term.mk', fracToFloat_argOf, bind, Except.bind] at h
    cases hf : fracToFloat F with
    | error e => simp [hf] at h
    | ok f =>
      cases hm : fracToFloat mF with
      | error e => simp [hf, hm] at h
      | ok m =>
        simp [hf, hm] at h
        exact ⟨f, m, rfl, by simp, by simp [h]⟩

/-! ## C10 -/

/-- C10: whatever chain of copies is made, configuration, term text, J, percentage, quantum numbers and coupling
are those of the original. -/
theorem C10_copies_keep (t u : Term) (h : Copies t u) :
    u.conf = t.conf ∧ u.term = t.term ∧ u.J = t.J ∧ u.percentage = t.percentage ∧ u.qn = t.qn ∧
      u.coupling = t.coupling := by
  induction h with
  | refl => exact ⟨rfl, rfl, rfl, rfl, rfl, rfl⟩
  | step F mF _ hc ih =>
    obtain ⟨f, m, _, _, rfl⟩ := makeCopy_ok hc
    exact ⟨ih.1, ih.2.1, ih.2.2.1, ih.2.2.2.1, ih.2.2.2.2.1, ih.2.2.2.2.2⟩

/-- C10, what the copies start from: a term made without a percentage has 100, and one made with a percentage has that; so have all its copies. -/
theorem C10_percentage (conf term : Str) (J F mF : FArg) (p : ℚ) (t u : Term) (h : Copies t u) :
    (Term.mk' conf term J F mF = .ok t → u.percentage = 100) ∧ (Term.mk' conf term J F mF p = .ok t → u.percentage = p) := by
  have hu := (C10_copies_keep t u h).2.2.2.1
  have key : ∀ q, Term.mk' conf term J F mF q = .ok t → t.percentage = q := by
    intro q hq
    unfold Term.mk' at hq
    cases h1 : fracToFloat J with
    | error e => rw [h1] at hq; cases hq
    | ok j =>
    cases h2 : fracToFloat F with
    | error e => rw [h1, h2] at hq; cases hq
    | ok f =>
    cases h3 : fracToFloat mF with
    | error e => rw [h1, h2, h3] at hq; cases hq
    | ok m =>
    cases h4 : getQuantumNums conf term with
    | error e => rw [h1, h2, h3, h4] at hq; cases hq
    | ok n =>
      rw [h1, h2, h3, h4] at hq
      cases hq
      rfl
  exact ⟨fun hq => hu.trans (key 100 hq), fun hq => hu.trans (key p hq)⟩

example : ∃ t, Term.mk' "3p".toList "2P*".toList (.str "1/2".toList) .none .none = .ok t ∧ t.percentage = 100 := by
  refine ⟨_, rfl, ?_⟩
  decide +kernel

/-- C10: a copy stores the requested mF, and the requested F unless the term already has one, which is kept; with
numeric or missing F and mF the copy always succeeds. -/
theorem C10_copy_sets (t : Term) (F mF : Option ℚ) :
    ∃ u, t.makeCopy (Term.argOf F) (Term.argOf mF) = .ok u ∧ u.mF = mF ∧
      (t.F = none → u.F = F) ∧ (t.F ≠ none → u.F = t.F) := by
  cases hF : t.F with
  | none =>
    refine ⟨⟨t.conf, t.term, t.J, F, mF, t.percentage, t.qn⟩, ?_, rfl, fun _ => rfl, fun h => absurd rfl h⟩
    simp [Term.makeCopy, hF, Term.mk', fracToFloat_argOf, bind, Except.bind]
  | some f =>
    refine ⟨⟨t.conf, t.term, t.J, some f, mF, t.percentage, t.qn⟩, ?_, rfl, by simp, fun _ => rfl⟩
    simp [Term.makeCopy, hF, Term.mk', fracToFloat_argOf, fracToFloat_num, bind, Except.bind]

/-- The hyperfine and Zeeman copies of a concrete level, used in the examples. -/
def exTerm : Term := ⟨"4f14.6s".toList, "2S".toList, some (1/2), none, none, 100, { l := some 0, s := some (1/2) }⟩

example : ∃ u v, exTerm.makeCopy (.num 1) .none = .ok u ∧ u.makeCopy .none (.num (-1)) = .ok v ∧ Copies exTerm v ∧
    v.F = some 1 ∧ v.mF = some (-1) := by
  refine ⟨⟨exTerm.conf, exTerm.term, some (1/2), some 1, none, 100, exTerm.qn⟩,
    ⟨exTerm.conf, exTerm.term, some (1/2), some 1, some (-1), 100, exTerm.qn⟩, rfl, rfl, ?_, rfl, rfl⟩
  exact .step .none (.num (-1)) (.step (.num 1) .none (.refl _) rfl) rfl

/-! ## C08 -/

/-- C08: the parity is -1 exactly when the term text has a star, otherwise 1; F/mF copies do not change it. -/
theorem C08_parity (t : Term) :
    (t.parity = -1 ↔ '*' ∈ t.term) ∧ (t.parity = 1 ↔ '*' ∉ t.term) ∧ ∀ u, Copies t u → u.parity = t.parity := by
  refine ⟨?_, ?_, ?_⟩
  · by_cases h : '*' ∈ t.term <;> simp [Term.parity, h]
  · by_cases h : '*' ∈ t.term <;> simp [Term.parity, h]
  · intro u hu
    simp [Term.parity, (C10_copies_keep t u hu).2.1]

example : (⟨[], "2P*".toList, none, none, none, 100, {}⟩ : Term).parity = -1 ∧ exTerm.parity = 1 := by decide

/-! ## C09 -/

/-- Characters of a printed half-integer. -/
def fracChr (c : Char) : Bool := isDig c || c == '-' || c == '/'

theorem numToFrac_fracChr {q : ℚ} (h : IsHalfInt q) : ∀ c ∈ numToFrac q, fracChr c = true := by
  intro c hc
  rcases numToFrac_chars h c hc with h | rfl | rfl
  · simp [fracChr, h]
  · decide
  · decide

theorem takeWhile_stop {α} (p : α → Bool) (w : List α) (x : α) (t : List α) (hw : ∀ c ∈ w, p c = true) (hx : p x = false) :
    (w ++ x :: t).takeWhile p = w := by
  induction w with
  | nil => simp [hx]
  | cons a l ih => simp [hw a (by simp), ih (fun c hc => hw c (by simp [hc]))]

/-- Splitting at the first occurrence of a character is unambiguous. -/
theorem split_first {w1 w2 t1 t2 : Str} {x : Char} (h1 : x ∉ w1) (h2 : x ∉ w2) (h : w1 ++ x :: t1 = w2 ++ x :: t2) :
    w1 = w2 ∧ t1 = t2 := by
  have a1 := takeWhile_stop (fun c => c != x) w1 x t1 (fun c hc => by simp; rintro rfl; exact h1 hc) (by simp)
  have a2 := takeWhile_stop (fun c => c != x) w2 x t2 (fun c hc => by simp; rintro rfl; exact h2 hc) (by simp)
  rw [h] at a1
  have : w1 = w2 := a1.symm.trans a2
  subst this
  simpa using h

/-- A text not ending in a number character, followed by number characters, splits in one way. -/
theorem split_frac {T1 T2 J1 J2 : Str} (h1 : ∀ c ∈ J1, fracChr c = true) (h2 : ∀ c ∈ J2, fracChr c = true)
    (hT1 : ∀ c, T1.getLast? = some c → fracChr c = false) (hT2 : ∀ c, T2.getLast? = some c → fracChr c = false)
    (h : T1 ++ J1 = T2 ++ J2) : T1 = T2 ∧ J1 = J2 := by
  have key : ∀ T J : Str, (∀ c ∈ J, fracChr c = true) → (∀ c, T.getLast? = some c → fracChr c = false) →
      (T ++ J).reverse.takeWhile fracChr = J.reverse := by
    intro T J hJ hT
    rw [List.reverse_append]
    cases hr : T.reverse with
    | nil => simpa using takeWhile_all fracChr J.reverse (by simpa using hJ)
    | cons a l =>
      have hTe : T = l.reverse ++ [a] := by
        have := congrArg List.reverse hr
        simpa using this
      have : T.getLast? = some a := by rw [hTe]; simp
      exact takeWhile_stop fracChr J.reverse a l (by simpa using hJ) (hT a this)
  have e := key T1 J1 h1 hT1
  rw [h, key T2 J2 h2 hT2] at e
  have hJ : J1 = J2 := by
    have := congrArg List.reverse e
    simpa using this.symm
  subst hJ
  exact ⟨by simpa using h, rfl⟩

/-- What C09 asks of a term: configuration without space; term text without `=` and not ending in a digit, `/` or
`-`; J present; J, F and mF half-integers. -/
structure NistNamed (t : Term) : Prop where
  conf_ns : ' ' ∉ t.conf
  term_eq : '=' ∉ t.term
  term_last : ∀ c, t.term.getLast? = some c → fracChr c = false
  hJ : ∃ j, t.J = some j ∧ IsHalfInt j
  hF : ∀ f, t.F = some f → IsHalfInt f
  hm : ∀ m, t.mF = some m → IsHalfInt m

/-- The text after term and J. -/
def subText (t : Term) : Str :=
  (match t.F with | some f => ' ' :: Term.fEq ++ numToFrac f | none => [])
    ++ (match t.mF with | some m => ' ' :: Term.mfEq ++ numToFrac m | none => [])

theorem not_mem_frac {q : ℚ} (h : IsHalfInt q) {c : Char} (hc : fracChr c = false) : c ∉ numToFrac q := by
  intro hm; simp [numToFrac_fracChr h c hm] at hc

/-- C09: equal names, equal identity. -/
theorem C09_names (a b : Term) (ha : NistNamed a) (hb : NistNamed b) (h : a.name = b.name) :
    a.conf = b.conf ∧ a.term = b.term ∧ a.J = b.J ∧ a.F = b.F ∧ a.mF = b.mF := by
  obtain ⟨ja, hja, hjaH⟩ := ha.hJ
  obtain ⟨jb, hjb, hjbH⟩ := hb.hJ
  have hn : ∀ t : Term, t.name = t.conf ++ ' ' :: ((t.term ++ Term.fracText t.J) ++ subText t) := by
    intro t; cases hf : t.F <;> cases hm : t.mF <;> simp [Term.name, Term.termName, subText, hf, hm]
  rw [hn a, hn b] at h
  obtain ⟨hconf, h⟩ := split_first ha.conf_ns hb.conf_ns h
  rw [hja, hjb] at h
  simp only [Term.fracText] at h
  -- the part before the first '='
  have eqn : '=' ∉ a.term ++ numToFrac ja ∧ '=' ∉ b.term ++ numToFrac jb := by
    constructor
    · simp [ha.term_eq, not_mem_frac hjaH (show fracChr '=' = false by decide)]
    · simp [hb.term_eq, not_mem_frac hjbH (show fracChr '=' = false by decide)]
  -- shapes of the sub text
  have shape : ∀ t : Term, (∀ f, t.F = some f → IsHalfInt f) → (∀ m, t.mF = some m → IsHalfInt m) →
      (t.F = none ∧ t.mF = none ∧ subText t = []) ∨
      (∃ r, subText t = [' ', 'F'] ++ '=' :: r ∧ ∃ f, t.F = some f ∧
        ((t.mF = none ∧ r = numToFrac f) ∨ ∃ m, t.mF = some m ∧ r = numToFrac f ++ ' ' :: (['m', 'F', '='] ++ numToFrac m))) ∨
      (∃ r, subText t = [' ', 'm', 'F'] ++ '=' :: r ∧ t.F = none ∧ ∃ m, t.mF = some m ∧ r = numToFrac m) := by
    intro t _ _
    cases hf : t.F with
    | none =>
      cases hm : t.mF with
      | none => left; simp [subText, hf, hm]
      | some m => right; right; exact ⟨numToFrac m, by simp [subText, hf, hm, Term.mfEq], rfl, m, rfl, rfl⟩
    | some f =>
      right; left
      cases hm : t.mF with
      | none => exact ⟨numToFrac f, by simp [subText, hf, hm, Term.fEq], f, rfl, .inl ⟨rfl, rfl⟩⟩
      | some m =>
        exact ⟨_, by simp [subText, hf, hm, Term.fEq, Term.mfEq]; rfl, f, rfl, .inr ⟨m, rfl, by simp⟩⟩
  have fin : ∀ u v : Str, u = v → u = a.term ++ numToFrac ja → v = b.term ++ numToFrac jb →
      a.term = b.term ∧ ja = jb := by
    intro u v huv hu hv
    rw [hu, hv] at huv
    obtain ⟨h1, h2⟩ := split_frac (numToFrac_fracChr hjaH) (numToFrac_fracChr hjbH) ha.term_last hb.term_last huv
    exact ⟨h1, numToFrac_inj hjaH hjbH h2⟩
  have spc : ∀ q, IsHalfInt q → ' ' ∉ numToFrac q := fun q hq => not_mem_frac hq (by decide)
  have assoc : ∀ (u w r : Str), u ++ (w ++ '=' :: r) = (u ++ w) ++ '=' :: r := by intros; simp
  have neqw : ∀ (u : Str) (w : Str), '=' ∉ u → '=' ∉ w → '=' ∉ u ++ w := by intro u w h1 h2; simp [h1, h2]
  rcases shape a ha.hF ha.hm with ⟨fa, ma, sa⟩ | ⟨ra, sa, f1, fa, ra'⟩ | ⟨ra, sa, fa, m1, ma, ra'⟩ <;>
  rcases shape b hb.hF hb.hm with ⟨fb, mb, sb⟩ | ⟨rb, sb, f2, fb, rb'⟩ | ⟨rb, sb, fb, m2, mb, rb'⟩ <;>
  rw [sa, sb] at h
  · obtain ⟨h1, h2⟩ := fin _ _ (by simpa using h) rfl rfl
    exact ⟨hconf, h1, by rw [hja, hjb, h2], by rw [fa, fb], by rw [ma, mb]⟩
  · exfalso; rw [List.append_nil] at h; rw [h] at eqn; exact eqn.1 (by simp)
  · exfalso; rw [List.append_nil] at h; rw [h] at eqn; exact eqn.1 (by simp)
  · exfalso; rw [List.append_nil] at h; rw [← h] at eqn; exact eqn.2 (by simp)
  · rw [assoc, assoc] at h
    obtain ⟨h1, h2⟩ := split_first (neqw _ _ eqn.1 (by decide)) (neqw _ _ eqn.2 (by decide)) h
    obtain ⟨h3, h4⟩ := fin _ _ (List.append_cancel_right h1) rfl rfl
    have hf1 := ha.hF f1 fa
    have hf2 := hb.hF f2 fb
    rcases ra' with ⟨ma, rfl⟩ | ⟨m1, ma, rfl⟩ <;> rcases rb' with ⟨mb, rfl⟩ | ⟨m2, mb, rfl⟩
    · exact ⟨hconf, h3, by rw [hja, hjb, h4], by rw [fa, fb, numToFrac_inj hf1 hf2 h2], by rw [ma, mb]⟩
    · exfalso; exact spc f1 hf1 (by rw [h2]; simp)
    · exfalso; exact spc f2 hf2 (by rw [← h2]; simp)
    · obtain ⟨h5, h6⟩ := split_first (spc f1 hf1) (spc f2 hf2) h2
      have h6' : numToFrac m1 = numToFrac m2 := by simpa using h6
      exact ⟨hconf, h3, by rw [hja, hjb, h4], by rw [fa, fb, numToFrac_inj hf1 hf2 h5],
        by rw [ma, mb, numToFrac_inj (ha.hm m1 ma) (hb.hm m2 mb) h6']⟩
  · exfalso
    rw [assoc, assoc] at h
    obtain ⟨h1, _⟩ := split_first (neqw _ _ eqn.1 (by decide)) (neqw _ _ eqn.2 (by decide)) h
    have := congrArg List.reverse h1
    simp at this
  · exfalso; rw [List.append_nil] at h; rw [← h] at eqn; exact eqn.2 (by simp)
  · exfalso
    rw [assoc, assoc] at h
    obtain ⟨h1, _⟩ := split_first (neqw _ _ eqn.1 (by decide)) (neqw _ _ eqn.2 (by decide)) h
    have := congrArg List.reverse h1
    simp at this
  · rw [assoc, assoc] at h
    obtain ⟨h1, h2⟩ := split_first (neqw _ _ eqn.1 (by decide)) (neqw _ _ eqn.2 (by decide)) h
    obtain ⟨h3, h4⟩ := fin _ _ (List.append_cancel_right h1) rfl rfl
    rw [ra', rb'] at h2
    exact ⟨hconf, h3, by rw [hja, hjb, h4], by rw [fa, fb],
      by rw [ma, mb, numToFrac_inj (ha.hm m1 ma) (hb.hm m2 mb) h2]⟩

example : NistNamed ⟨"4f13.(2F*<7/2>).5d.6s".toList, "3[3/2]*".toList, some (5/2), some 2, some (-1), 100, {}⟩ where
  conf_ns := by decide
  term_eq := by decide
  term_last := by intro c hc; simp at hc; subst hc; decide
  hJ := ⟨5/2, rfl, 5, by norm_num⟩
  hF := by intro f hf; simp at hf; subst hf; exact ⟨4, by norm_num⟩
  hm := by intro f hf; simp at hf; subst hf; exact ⟨-2, by norm_num⟩

/-- C09 (why the shape is needed): with a term text ending in a digit two different terms share a name. -/
theorem C09_names_ambiguous : ∃ a b : Term, a.name = b.name ∧ a.J ≠ b.J :=
  ⟨⟨[], "2S1".toList, some 2, none, none, 100, {}⟩, ⟨[], "2S".toList, some 12, none, none, 100, {}⟩,
    by decide +kernel, by decide +kernel⟩

/-- C09: a term without J is named with the word None in its place. -/
theorem C09_missing (t : Term) (h : t.J = none) : t.F = none → t.mF = none →
    t.termName = t.term ++ "None".toList ∧ t.name = t.conf ++ ' ' :: (t.term ++ "None".toList) := by
  intro h1 h2
  constructor <;> simp [Term.name, Term.termName, Term.fracText, h, h1, h2]

example : (⟨"4f".toList, "2F*".toList, none, none, none, 100, {}⟩ : Term).name = "4f 2F*None".toList := by decide +kernel

/-! ## C11 -/

/-- C11 (what holds): equality of terms is an equivalence relation; it compares exactly configuration, term text and
parsed quantum numbers.  Missing for the full property: telling apart terms that differ in J, F or mF. -/
theorem C11_eq_partial :
    (∀ a : Term, a.eq a = true) ∧ (∀ a b : Term, a.eq b = b.eq a) ∧
    (∀ a b c : Term, a.eq b = true → b.eq c = true → a.eq c = true) ∧
    (∀ a b : Term, a.eq b = true ↔ a.conf = b.conf ∧ a.term = b.term ∧ a.qn = b.qn) := by
  have key : ∀ a b : Term, a.eq b = true ↔ a.conf = b.conf ∧ a.term = b.term ∧ a.qn = b.qn := by
    intro a b
    simp only [Term.eq, Bool.and_eq_true, decide_eq_true_eq]
    tauto
  refine ⟨fun a => (key a a).2 ⟨rfl, rfl, rfl⟩, ?_, ?_, key⟩
  · intro a b
    rw [Bool.eq_iff_iff, key, key]
    constructor <;> (rintro ⟨h1, h2, h3⟩; exact ⟨h1.symm, h2.symm, h3.symm⟩)
  · intro a b c h1 h2
    rw [key] at *
    exact ⟨h1.1.trans h2.1, h1.2.1.trans h2.2.1, h1.2.2.trans h2.2.2⟩

/-- C11 fails: for every term and every other J there is an equal term with that J (and likewise for F and mF). -/
theorem C11_eq_ignores_J_fails (a : Term) (J F mF : Option ℚ) : a.eq { a with J := J, F := F, mF := mF } = true :=
  (C11_eq_partial.2.2.2 _ _).2 ⟨rfl, rfl, rfl⟩

example : exTerm.eq { exTerm with J := some (3/2) } = true ∧ (some (3/2 : ℚ)) ≠ exTerm.J := by decide +kernel

/-! ## C12 -/

/-- C12: a `MultiTerm` keeps exactly the given components, in order of decreasing percentage, those of equal
percentage in the given order; attribute access reads the leading component, which has the largest percentage. -/
theorem C12_multiterm (ts : List Term) :
    (MultiTerm.mk' ts).terms.Perm ts ∧
    (MultiTerm.mk' ts).terms.Pairwise (fun a b => b.percentage ≤ a.percentage) ∧
    (∀ p : ℚ, (MultiTerm.mk' ts).terms.filter (fun t => decide (t.percentage = p)) =
      ts.filter (fun t => decide (t.percentage = p))) ∧
    (∀ (α : Type) (f : Term → α), ts ≠ [] → ∃ t ∈ ts, (∀ u ∈ ts, u.percentage ≤ t.percentage) ∧
      (MultiTerm.mk' ts).attr f = .ok (f t) ∧ (MultiTerm.mk' ts).terms.head? = some t) ∧
    (∀ (α : Type) (f : Term → α), ts = [] → (MultiTerm.mk' ts).attr f = .error .IndexError) := by
  have hperm : (MultiTerm.mk' ts).terms.Perm ts := pySorted_perm _ ts
  have hsort : (MultiTerm.mk' ts).terms.Pairwise (fun a b => b.percentage ≤ a.percentage) := by
    have := pySorted_pairwise (fun a b : Term => decide (b.percentage ≤ a.percentage))
      (fun a b => by simpa using le_total b.percentage a.percentage)
      (fun a b c h1 h2 => by simp at *; exact le_trans h2 h1) ts
    simpa [MultiTerm.mk'] using this
  refine ⟨hperm, hsort, ?_, ?_, ?_⟩
  · intro p
    exact pySorted_filter _ _ (by intro a b ha hb; simp at *; rw [ha, hb]) ts
  · intro α f hne
    cases hm : (MultiTerm.mk' ts).terms with
    | nil => rw [hm] at hperm; exact absurd hperm.symm.eq_nil hne
    | cons t r =>
      rw [hm] at hperm hsort
      refine ⟨t, hperm.mem_iff.1 (by simp), ?_, by simp [MultiTerm.attr, hm], rfl⟩
      intro u hu
      have := hperm.mem_iff.2 hu
      simp at this
      rcases this with rfl | h
      · exact le_refl _
      · exact (List.pairwise_cons.1 hsort).1 u h
  · rintro α f rfl; rfl

example : (MultiTerm.mk' [{ exTerm with percentage := 30 }, { exTerm with percentage := 70 }]).attr
    (fun t => t.percentage) = .ok 70 := by decide +kernel

/-- C12: copying a multi-term copies its components in place, so the leading component stays leading. -/
theorem C12_copy (ts : List Term) (F mF : Option ℚ) :
    ∃ us, (MultiTerm.mk' ts).makeCopy (Term.argOf F) (Term.argOf mF) = .ok ⟨us⟩ ∧
      List.Forall₂ (fun t u => t.makeCopy (Term.argOf F) (Term.argOf mF) = .ok u) (MultiTerm.mk' ts).terms us := by
  obtain ⟨_, hsort, _⟩ := C12_multiterm ts
  generalize (MultiTerm.mk' ts) = M at hsort
  obtain ⟨l⟩ := M
  dsimp only at *
  have : ∃ us, l.mapM (fun t => t.makeCopy (Term.argOf F) (Term.argOf mF)) = .ok us ∧
      List.Forall₂ (fun t u => t.makeCopy (Term.argOf F) (Term.argOf mF) = .ok u) l us := by
    clear hsort
    induction l with
    | nil => exact ⟨[], rfl, .nil⟩
    | cons t r ih =>
      obtain ⟨u, hu, _⟩ := C10_copy_sets t F mF
      obtain ⟨us, h1, h2⟩ := ih
      refine ⟨u :: us, ?_, .cons hu h2⟩
      rw [List.mapM_cons, hu, h1]; rfl
  obtain ⟨us, h1, h2⟩ := this
  refine ⟨us, ?_, h2⟩
  have hs : us.Pairwise (fun a b => decide (b.percentage ≤ a.percentage) = true) := by
    clear h1
    induction h2 with
    | nil => exact List.Pairwise.nil
    | cons ht hr ih =>
      rename_i t u r us'
      rw [List.pairwise_cons] at hsort ⊢
      refine ⟨?_, ih hsort.2⟩
      intro v hv
      have pct : ∀ {t u : Term}, t.makeCopy (Term.argOf F) (Term.argOf mF) = .ok u → u.percentage = t.percentage := by
        intro t u h; obtain ⟨_, _, _, _, rfl⟩ := makeCopy_ok h; rfl
      have : ∃ w ∈ r, w.makeCopy (Term.argOf F) (Term.argOf mF) = .ok v := by
        clear hsort ih ht
        induction hr with
        | nil => simp at hv
        | cons h1 h2 ih =>
          simp at hv
          rcases hv with rfl | hv
          · exact ⟨_, by simp, h1⟩
          · obtain ⟨w, hw, h⟩ := ih hv
            exact ⟨w, by simp [hw], h⟩
      obtain ⟨w, hw, hwv⟩ := this
      simp only [decide_eq_true_eq, pct ht, pct hwv]
      exact hsort.1 w hw
  simp only [MultiTerm.makeCopy, h1, bind, Except.bind, MultiTerm.mk', pySorted_of_pairwise _ us hs]

/-- C12 fails for `==`: a one-component multi-term equals a longer one beginning with the same component, but
compared the other way round the comparison raises. -/
theorem C12_eq_asymmetric_fails : ∃ a b : MultiTerm, a.eq b = .ok true ∧ b.eq a = .error .IndexError :=
  ⟨MultiTerm.mk' [exTerm], MultiTerm.mk' [exTerm, { exTerm with percentage := 10 }], by decide +kernel, by decide +kernel⟩

/-- C12 (what holds of `==`): it is symmetric between multi-terms with the same number of components.  Missing for
the full property: multi-terms of different lengths. -/
theorem C12_eq_partial (a b : MultiTerm) (h : a.terms.length = b.terms.length) : a.eq b = b.eq a := by
  obtain ⟨a⟩ := a
  obtain ⟨b⟩ := b
  simp only [MultiTerm.eq] at *
  induction a generalizing b with
  | nil => cases b with
    | nil => rfl
    | cons y ys => simp at h
  | cons x xs ih => cases b with
    | nil => simp at h
    | cons y ys =>
      simp only [MultiTerm.eqList, ih ys (by simpa using h), C11_eq_partial.2.1 x y]

example : (MultiTerm.mk' [exTerm]).terms.length = (MultiTerm.mk' [{ exTerm with percentage := 10 }]).terms.length := rfl

/-- C12: compared with a single term, a multi-term is as its leading component; without components the comparison raises. -/
theorem C12_eq_term (ts : List Term) (t : Term) :
    (ts ≠ [] → ∃ u ∈ ts, (∀ v ∈ ts, v.percentage ≤ u.percentage) ∧ (MultiTerm.mk' ts).eqTerm t = .ok (u.eq t)) ∧
    (ts = [] → (MultiTerm.mk' ts).eqTerm t = .error .IndexError) := by
  constructor
  · intro h
    obtain ⟨u, hu, hm, -, hd⟩ := (C12_multiterm ts).2.2.2.1 Unit (fun _ => ()) h
    refine ⟨u, hu, hm, ?_⟩
    unfold MultiTerm.eqTerm
    cases hl : (MultiTerm.mk' ts).terms with
    | nil => rw [hl] at hd; simp at hd
    | cons x r => rw [hl] at hd; simp at hd; rw [hd]
  · rintro rfl; rfl

example : (MultiTerm.mk' [{ exTerm with conf := [], percentage := 10 }, exTerm]).eqTerm exTerm = .ok true := by decide +kernel

/-- C12, finding: `terms_dict` is keyed by percentage, so components of equal percentage overwrite each other. -/
theorem C12_terms_dict_loses : ∃ ts : List Term, (MultiTerm.mk' ts).termsDict.length < ts.length :=
  ⟨[exTerm, { exTerm with J := some (3/2) }], by decide +kernel⟩

end AtomTk
