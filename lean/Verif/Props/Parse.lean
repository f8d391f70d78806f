import Verif.Proofs.Parse
import Verif.Model.Term

/-! # C04-C07: the four term parsers (util.py:133-267, term.py:30-67) -/

namespace AtomTk
open Util Regex

/-! ## C04 -/

/-- C04: an LS term `{n}{X}` or `{n}{X}*`, with any configuration and any J, F, mF given as numbers or `None`,
constructs, is classified LS and has `l` = number of the letter, `s = (n-1)/2` and nothing else. -/
theorem C04_LS (conf : Str) (n l : Nat) (X : Char) (st : Bool) (hX : specLetters[l]? = some X)
    (J F mF : Option ℚ) (pct : ℚ) :
    ∃ t, Term.mk' conf (natStr n ++ X :: starText st) (Term.argOf J) (Term.argOf F) (Term.argOf mF) pct = .ok t ∧
      t.coupling = .LS ∧ t.qn = { l := some (l : ℚ), s := some (((n : ℚ) - 1) / 2) } ∧
      t.J = J ∧ t.F = F ∧ t.mF = mF ∧ t.conf = conf := by
  have hq : getQuantumNums conf (natStr n ++ X :: starText st) =
      .ok { l := some (l : ℚ), s := some (((n : ℚ) - 1) / 2) } := by
    rw [getQuantumNums, coupling_LS n X st (letter_isUp hX)]
    simp [parseLS, findall_LS n X st (letter_isUp hX), spinOf_natStr, letNum_letter hX, bind, Except.bind]
  refine ⟨⟨conf, natStr n ++ X :: starText st, J, F, mF, pct, { l := some (l : ℚ), s := some (((n : ℚ) - 1) / 2) }⟩,
    ?_, coupling_LS n X st (letter_isUp hX), rfl, rfl, rfl, rfl, rfl⟩
  cases J <;> cases F <;> cases mF <;>
    simp [Term.mk', Term.argOf, fracToFloat, hq, bind, Except.bind]

example : specLetters[3]? = some 'F' ∧
    natStr 12 ++ 'F' :: starText true = "12F*".toList := by decide

/-- C04, error branch: a term classified LS that contains no capital letter is rejected with `ValueError`. -/
theorem C04_LS_no_letter (conf t : Str) (h1 : getTermCoupling t = .LS) (h2 : NoUp t) :
    getQuantumNums conf t = .error .ValueError := by
  have h0 : ∀ b, NoUp b → run reLS b Caps.none = [] := by
    intro b hb
    apply run_nil_of_lang
    intro w r hw hl
    obtain ⟨ds, v, rfl, _, x, rfl, hx⟩ := hl
    have := hb x (by rw [hw]; simp)
    have hx' : isCapital x = true := hx
    rw [hx'] at this; simp at this
  have : findall 2 reLS t = [] := by
    rw [findall_eq, scan_skip_all reLS t (h0 [] (by simp [NoUp]))]
    · rfl
    · intro a b hab _
      exact h0 b (fun x hx => h2 x (by rw [hab]; simp [hx]))
  simp [getQuantumNums, h1, parseLS, this]

example : getTermCoupling "12*".toList = .LS ∧ NoUp "12*".toList := by
  constructor
  · decide
  · intro x hx; revert x; decide

theorem head_LS (n : Nat) (X : Char) (rest : Str) (hX : isUp X = true) :
    (run reLS (natStr n ++ X :: rest) Caps.none).head? = some (Regex.upd 2 [X] (Regex.upd 1 (natStr n) Caps.none), rest) := by
  refine run_seq_head _ _ _ (X :: rest) _ (Regex.upd 1 (natStr n) Caps.none) _ ?_ ?_
  · refine run_grp_head 1 _ _ _ _ _ (run_plus_head isDig _ _ _ (natStr_ne n) (natStr_dig n) ?_)
    intro x xs h; simp at h; rw [← h.1]; exact isUp_not_dig hX
  · refine run_grp_head 2 _ [X] rest _ _ ?_
    simp [run, hX]

/-- C04, error branch: a term classified LS with two groups `{n}{X}` is rejected with `ValueError`; neither of them is taken. -/
theorem C04_LS_two (conf rest : Str) (n m : Nat) (X Y : Char) (st : Bool) (hX : isCapital X = true) (hY : isCapital Y = true)
    (h : getTermCoupling (natStr n ++ X :: (starText st ++ (natStr m ++ Y :: rest))) = .LS) :
    getQuantumNums conf (natStr n ++ X :: (starText st ++ (natStr m ++ Y :: rest))) = .error .ValueError := by
  have hs : scan reLS (starText st ++ (natStr m ++ Y :: rest)) = scan reLS (natStr m ++ Y :: rest) := by
    cases st
    · rfl
    · show scan reLS ('*' :: (natStr m ++ Y :: rest)) = _
      rw [scan_skip]
      simp [reLS, rcat, run, plus, isDig]
  have hf : ∃ a b l, findall 2 reLS (natStr n ++ X :: (starText st ++ (natStr m ++ Y :: rest))) = a :: b :: l := by
    rw [findall_eq, scan_match _ _ _ _ (head_LS n X _ hX) (by simp; omega), hs,
      scan_match _ _ _ _ (head_LS m Y rest hY) (by simp; omega)]
    exact ⟨_, _, _, rfl⟩
  obtain ⟨a, b, l, hf⟩ := hf
  rw [getQuantumNums, h]
  simp only [parseLS, hf]

example : getTermCoupling (natStr 2 ++ 'F' :: (starText true ++ (natStr 3 ++ 'P' :: "*".toList))) = .LS ∧
    natStr 2 ++ 'F' :: (starText true ++ (natStr 3 ++ 'P' :: "*".toList)) = "2F*3P*".toList := by decide +kernel

/-! ## C05 -/

/-- C05: one core `({n}{X}[*]<{jc}>)` surrounded by text without capital letters, the configuration ending in the
outer electron's letter `o`, and the term `{m}[{K}][*]`. -/
theorem C05_JK (pre mid : Str) (n l m : Nat) (X o : Char) (lo : Nat) (st st2 : Bool) (jc K : ℚ)
    (hpre : NoUp pre) (hmid : NoUp mid) (ho : isCapital o = false) (hX : specLetters[l]? = some X)
    (hlo : letToL [o] = .ok (some lo)) (hj : IsHalfInt jc) (hK : IsHalfInt K) :
    getQuantumNums (pre ++ coreText n X st jc ++ (mid ++ [o])) (natStr m ++ '[' :: (numToFrac K ++ ']' :: starText st2)) =
      .ok { lc := some (l : ℚ), sc := some (((n : ℚ) - 1) / 2), jc := some jc,
            lo := some (lo : ℚ), so := some (((m : ℚ) - 1) / 2), k := some K } := by
  have hmid' : NoUp (mid ++ [o]) := by
    intro x hx; simp at hx
    rcases hx with hx | rfl
    · exact hmid x hx
    · exact ho
  have hlast : lastStr (pre ++ coreText n X st jc ++ (mid ++ [o])) = .ok [o] := by
    simp only [lastStr, ← List.append_assoc, List.getLast?_concat]
  have hloN : letNum [o] = .ok (some (lo : ℚ)) := by simp [letNum, hlo, bind, Except.bind]
  rw [getQuantumNums, coupling_JK]
  simp only [parseJK, findall_JKconf pre (mid ++ [o]) n X st jc hpre hmid' (letter_isUp hX) hj, hlast,
    findall_JKterm m K st2 hK, frac_roundtrip hj, frac_roundtrip hK, spinOf_natStr, letNum_letter hX, hloN,
    bind, Except.bind]

example : NoUp "4f13.".toList ∧ NoUp ".5d.6".toList ∧ isCapital 's' = false ∧ specLetters[3]? = some 'F' ∧
    letToL ['s'] = .ok (some 0) ∧
    "4f13.".toList ++ coreText 2 'F' true (7/2) ++ (".5d.6".toList ++ ['s']) = "4f13.(2F*<7/2>).5d.6s".toList := by
  refine ⟨?_, ?_, by decide, by decide, by decide, by decide +kernel⟩ <;> (intro x hx; revert x; decide)

/-- C05, second shape: a core and a second ancestor `({n2}{X2}[*])` with the outer electrons' letter. -/
theorem C05_JK_two (pre mid post : Str) (n l m n2 l2 : Nat) (X X2 : Char) (st st2 st3 : Bool) (jc K : ℚ)
    (hpre : NoUp pre) (hmid : NoUp mid) (hpost : NoUp post) (hX : specLetters[l]? = some X)
    (hX2 : specLetters[l2]? = some X2) (hj : IsHalfInt jc) (hK : IsHalfInt K) :
    getQuantumNums (pre ++ coreText n X st jc ++ (mid ++ ancText n2 X2 st2 ++ post))
        (natStr m ++ '[' :: (numToFrac K ++ ']' :: starText st3)) =
      .ok { lc := some (l : ℚ), sc := some (((n : ℚ) - 1) / 2), jc := some jc,
            lo := some (l2 : ℚ), so := some (((m : ℚ) - 1) / 2), k := some K } := by
  rw [getQuantumNums, coupling_JK]
  simp only [parseJK, findall_JKconf2 pre mid post n X st jc n2 X2 st2 hpre hmid hpost (letter_isUp hX) (letter_isUp hX2) hj,
    findall_JKterm m K st3 hK, frac_roundtrip hj, frac_roundtrip hK, spinOf_natStr, letNum_letter hX, letNum_letter hX2,
    bind, Except.bind]

example : "4f13.".toList ++ coreText 2 'F' true (7/2) ++ (".5d2.".toList ++ ancText 3 'P' false ++ []) =
    "4f13.(2F*<7/2>).5d2.(3P)".toList := by decide +kernel

/-- C05, error branch: a JK term whose configuration has no ancestor is rejected with `ValueError`. -/
theorem C05_JK_no_core (conf t : Str) (h1 : getTermCoupling t = .JK) (h2 : NoUp conf) :
    getQuantumNums conf t = .error .ValueError := by
  have : findall 3 reJKconf conf = [] := by rw [findall_eq, scan_JKconf_none conf h2]; rfl
  simp [getQuantumNums, h1, parseJK, this, bind, Except.bind]

example : getTermCoupling "3[3/2]*".toList = .JK ∧ NoUp "4f14.6s".toList := by
  constructor
  · decide
  · intro x hx; revert x; decide

theorem scan_needs (r : Re) (q : Char) (h : ∀ w, Lang r w → q ∈ w) (s : Str) (hs : q ∉ s) : scan r s = [] := by
  refine scan_skip_all r s (run_nil_of_lang r [] _ ?_) ?_
  · intro w t hw hl
    have := h w hl
    have : w = [] := by
      cases w with
      | nil => rfl
      | cons x xs => simp at hw
    subst this
    simp at *
  · intro a b hab _
    refine run_nil_of_lang r b _ ?_
    intro w t hw hl
    exact hs (by rw [hab, hw]; simp [h w hl])

theorem lang_JKterm {w : Str} (h : Lang reJKterm w) : ']' ∈ w := by
  obtain ⟨a, b, rfl, _, c, d, rfl, _, e, f, rfl, _, hf⟩ := h
  rw [lang_chr hf]
  simp

theorem lang_LKterm {w : Str} (h : Lang reLKterm w) : ']' ∈ w := by
  obtain ⟨a, b, rfl, _, c, d, rfl, _, e, f, rfl, _, g, i, rfl, _, j, k, rfl, _, m, n, rfl, _, hf⟩ := h
  rw [lang_chr hf]
  simp

theorem lastStr_ok {conf : Str} (h : conf ≠ []) : ∃ l, lastStr conf = .ok l := by
  unfold lastStr
  rw [List.getLast?_eq_some_getLast h]
  exact ⟨_, rfl⟩

/-- C05 and C06, error branch: a term with `[` but no `]` is rejected with `ValueError`, whatever the configuration. -/
theorem C05_unclosed (conf t : Str) (h1 : '[' ∈ t) (h2 : ']' ∉ t) : getQuantumNums conf t = .error .ValueError := by
  have e1 : findall 2 reJKterm t = [] := by rw [findall_eq, scan_needs _ ']' (fun w => lang_JKterm) t h2]; rfl
  have e2 : findall 3 reLKterm t = [] := by rw [findall_eq, scan_needs _ ']' (fun w => lang_LKterm) t h2]; rfl
  have hJK : parseJK conf t = .error .ValueError := by
    unfold parseJK
    rw [e1]
    by_cases hc : conf = []
    · subst hc; decide
    · obtain ⟨l, hl⟩ := lastStr_ok hc
      rw [hl]
      simp only [bind, Except.bind]
      split <;> rfl
  have hLK : parseLK conf t = .error .ValueError := by
    unfold parseLK
    rw [e2]
    by_cases hc : conf = []
    · subst hc; decide
    · obtain ⟨l, hl⟩ := lastStr_ok hc
      rw [hl]
      simp only [bind, Except.bind]
      split <;> rfl
  unfold getQuantumNums getTermCoupling
  rw [if_pos h1]
  cases t with
  | nil => simp at h1
  | cons c t =>
    simp only
    by_cases hc : c ∈ orbitals
    · rw [if_pos hc]; exact hLK
    · rw [if_neg hc]; exact hJK

example : getQuantumNums "4f13.(2F*<7/2>).6s2".toList "3[3/2".toList = .error .ValueError ∧
    getQuantumNums "3p5.(2P*).4d".toList "F 2[7/2".toList = .error .ValueError :=
  ⟨C05_unclosed _ _ (by decide) (by decide), C05_unclosed _ _ (by decide) (by decide)⟩

/-! ## C06 -/

/-- C06: one ancestor `({n}{X}[*])`, outer electron letter last, term `{L}[*] {m}[{K}][*]`. -/
theorem C06_LK (pre mid : Str) (n lc m l : Nat) (X o L : Char) (lo : Nat) (st st1 st2 : Bool) (K : ℚ)
    (hpre : NoUp pre) (hmid : NoUp mid) (ho : isCapital o = false) (hX : specLetters[lc]? = some X)
    (hL : specLetters[l]? = some L) (hlo : letToL [o] = .ok (some lo)) (hK : IsHalfInt K) :
    getQuantumNums (pre ++ ancText n X st ++ (mid ++ [o]))
        (L :: (starText st1 ++ ' ' :: (natStr m ++ '[' :: (numToFrac K ++ ']' :: starText st2)))) =
      .ok { lc := some (lc : ℚ), sc := some (((n : ℚ) - 1) / 2), lo := some (lo : ℚ), l := some (l : ℚ),
            so := some (((m : ℚ) - 1) / 2), k := some K } := by
  have hmid' : NoUp (mid ++ [o]) := by
    intro x hx; simp at hx
    rcases hx with hx | rfl
    · exact hmid x hx
    · exact ho
  have hlast : lastStr (pre ++ ancText n X st ++ (mid ++ [o])) = .ok [o] := by
    simp only [lastStr, ← List.append_assoc, List.getLast?_concat]
  have hloN : letNum [o] = .ok (some (lo : ℚ)) := by simp [letNum, hlo, bind, Except.bind]
  rw [getQuantumNums, coupling_LK hL _ (by simp)]
  simp only [parseLK, findall_LKconf pre (mid ++ [o]) n X st hpre hmid' (letter_isUp hX), hlast,
    findall_LKterm L st1 m K st2 (letter_isUp hL) hK, frac_roundtrip hK, spinOf_natStr, letNum_letter hX,
    letNum_letter hL, hloN, bind, Except.bind]

example : "3p5.".toList ++ ancText 2 'P' true ++ (".4".toList ++ ['d']) = "3p5.(2P*).4d".toList ∧
    'F' :: (starText true ++ ' ' :: (natStr 2 ++ '[' :: (numToFrac (7/2) ++ ']' :: starText false))) =
      "F* 2[7/2]".toList := by decide +kernel

/-- C06, error branch: an LK term whose configuration has no ancestor is rejected with `ValueError`. -/
theorem C06_LK_no_ancestor (conf t : Str) (h1 : getTermCoupling t = .LK) (h2 : NoUp conf) :
    getQuantumNums conf t = .error .ValueError := by
  have : findall 2 reLKconf conf = [] := by rw [findall_eq, scan_LKconf_none conf h2]; rfl
  simp [getQuantumNums, h1, parseLK, this, bind, Except.bind]

example : getTermCoupling "F* 2[7/2]".toList = .LK ∧ NoUp "4f14.6s".toList := by
  constructor
  · decide
  · intro x hx; revert x; decide

/-! ## C07 -/

theorem isLet_letter {X : Char} {l : Nat} (h : specLetters[l]? = some X) : isLet X = true := by
  simp [isLet, letter_isUp h]

theorem jjSpin_letter {X : Char} {l : Nat} (n : Nat) (h : specLetters[l]? = some X) :
    jjSpin (natStr n) [X] = .ok (some (((n : ℚ) - 1) / 2)) := by
  simp [jjSpin, letter_isUp h, spinOf_natStr]

/-- C07: two groups in the configuration, any text without `<` around them. -/
theorem C07_JJ_conf (p0 p1 p2 t : Str) (n1 l1 n2 l2 : Nat) (X1 X2 : Char) (st1 st2 : Bool) (j1 j2 : ℚ)
    (h0 : '<' ∉ p0) (h1 : '<' ∉ p1) (h2 : '<' ∉ p2) (ht : getTermCoupling t = .JJ)
    (hX1 : specLetters[l1]? = some X1) (hX2 : specLetters[l2]? = some X2) (hj1 : IsHalfInt j1) (hj2 : IsHalfInt j2) :
    getQuantumNums (p0 ++ coreText n1 X1 st1 j1 ++ p1 ++ coreText n2 X2 st2 j2 ++ p2) t =
      .ok { lc := some (l1 : ℚ), sc := some (((n1 : ℚ) - 1) / 2), jc := some j1,
            lo := some (l2 : ℚ), so := some (((n2 : ℚ) - 1) / 2), jo := some j2 } := by
  rw [getQuantumNums, ht]
  simp only [parseJJ, findall_JJ p0 p1 p2 n1 X1 st1 j1 n2 X2 st2 j2 h0 h1 h2 (isLet_letter hX1) (isLet_letter hX2) hj1 hj2]
  simp [frac_roundtrip hj1, frac_roundtrip hj2, letNum_letter hX1, letNum_letter hX2,
    jjSpin_letter n1 hX1, jjSpin_letter n2 hX2, bind, Except.bind]

example : getTermCoupling "(7/2,1)".toList = .JJ ∧
    "4f13.".toList ++ coreText 2 'F' true (7/2) ++ ".6s.6p.".toList ++ coreText 3 'P' true 1 ++ [] =
      "4f13.(2F*<7/2>).6s.6p.(3P*<1>)".toList := by decide +kernel

/-- C07: no `<` in the configuration: the groups are taken from the term text. -/
theorem C07_JJ_term (conf p0 p1 p2 : Str) (n1 l1 n2 l2 : Nat) (X1 X2 : Char) (st1 st2 : Bool) (j1 j2 : ℚ)
    (hc : '<' ∉ conf) (h0 : '<' ∉ p0) (h1 : '<' ∉ p1) (h2 : '<' ∉ p2)
    (ht : getTermCoupling (p0 ++ coreText n1 X1 st1 j1 ++ p1 ++ coreText n2 X2 st2 j2 ++ p2) = .JJ)
    (hX1 : specLetters[l1]? = some X1) (hX2 : specLetters[l2]? = some X2) (hj1 : IsHalfInt j1) (hj2 : IsHalfInt j2) :
    getQuantumNums conf (p0 ++ coreText n1 X1 st1 j1 ++ p1 ++ coreText n2 X2 st2 j2 ++ p2) =
      .ok { lc := some (l1 : ℚ), sc := some (((n1 : ℚ) - 1) / 2), jc := some j1,
            lo := some (l2 : ℚ), so := some (((n2 : ℚ) - 1) / 2), jo := some j2 } := by
  have hnone : findall 3 reJJ conf = [] := by rw [findall_eq, scan_JJ_none conf hc]; rfl
  rw [getQuantumNums, ht]
  simp only [parseJJ, hnone, if_true,
    findall_JJ p0 p1 p2 n1 X1 st1 j1 n2 X2 st2 j2 h0 h1 h2 (isLet_letter hX1) (isLet_letter hX2) hj1 hj2]
  simp [frac_roundtrip hj1, frac_roundtrip hj2, letNum_letter hX1, letNum_letter hX2,
    jjSpin_letter n1 hX1, jjSpin_letter n2 hX2, bind, Except.bind]

example : getTermCoupling ([] ++ coreText 2 'F' true (7/2) ++ [','] ++ coreText 3 'P' true 1 ++ []) = .JJ := by
  decide +kernel

/-- C07, error branch: neither the configuration nor the term has a `<`. -/
theorem C07_JJ_none (conf t : Str) (h1 : getTermCoupling t = .JJ) (hc : '<' ∉ conf) (ht : '<' ∉ t) :
    getQuantumNums conf t = .error .ValueError := by
  have e1 : findall 3 reJJ conf = [] := by rw [findall_eq, scan_JJ_none conf hc]; rfl
  have e2 : findall 3 reJJ t = [] := by rw [findall_eq, scan_JJ_none t ht]; rfl
  simp [getQuantumNums, h1, parseJJ, e1, e2]

example : getTermCoupling "(7/2,1)".toList = .JJ ∧ '<' ∉ "4f14.6s".toList ∧ '<' ∉ "(7/2,1)".toList := by decide

/-- C07, finding: a single electron written with a lower-case letter (`(7p<3/2>)`) is given spin 0, not 1/2. -/
theorem C07_electron_spin_zero (n : Nat) (c : Char) (hc : isLow c = true) : jjSpin (natStr n) [c] = .ok (some 0) := by
  have : isUp c = false := by
    simp only [isLow, isUp, Bool.and_eq_true, decide_eq_true_eq, Bool.and_eq_false_iff, decide_eq_false_iff_not] at *
    omega
  simp [jjSpin, hc, this]

example : isLow 'p' = true := by decide

/-- C07: a group letter that is none of the 52 Latin letters gives no spin. -/
theorem C07_no_letter (ss : Str) (c : Char) (h1 : ¬('A'.toNat ≤ c.toNat ∧ c.toNat ≤ 'Z'.toNat)) (h2 : ¬('a'.toNat ≤ c.toNat ∧ c.toNat ≤ 'z'.toNat)) :
    jjSpin ss [c] = .ok none := by
  have k1 : isUp c = false := by
    simp only [isUp, Bool.and_eq_false_iff, decide_eq_false_iff_not]
    change ¬(65 ≤ _ ∧ _ ≤ 90) at h1
    omega
  have k2 : isLow c = false := by
    simp only [isLow, Bool.and_eq_false_iff, decide_eq_false_iff_not]
    change ¬(97 ≤ _ ∧ _ ≤ 122) at h2
    omega
  simp [jjSpin, k1, k2]

example : ¬('A'.toNat ≤ '{'.toNat ∧ '{'.toNat ≤ 'Z'.toNat) ∧ ¬('a'.toNat ≤ '{'.toNat ∧ '{'.toNat ≤ 'z'.toNat) := by decide

end AtomTk
