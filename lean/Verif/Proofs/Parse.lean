import Verif.Proofs.Regex
import Verif.Spec.TermShape

/-! # Lemmas on the four term parsers -/

namespace AtomTk
open Util Regex

/-! ## Small facts -/

theorem letter_isUp {X : Char} {l : Nat} (h : specLetters[l]? = some X) : isUp X = true := by
  have : ∀ d ∈ specLetters, isUp d = true := by decide
  exact this _ (List.mem_of_getElem? h)

theorem letNum_letter {X : Char} {l : Nat} (h : specLetters[l]? = some X) : letNum [X] = .ok (some (l : ℚ)) := by
  have hl : l < 21 := by
    exact (List.getElem?_eq_some_iff.1 h).1
  have key : ∀ l : Fin 21, ∀ X ∈ specLetters, specLetters[l.1]? = some X → letToL [X] = .ok (some l.1) := by decide
  have := key ⟨l, hl⟩ X (List.mem_of_getElem? h) h
  simp [letNum, this, bind, Except.bind]

theorem spinOf_natStr (n : Nat) : spinOf (natStr n) = .ok (some (((n : ℚ) - 1) / 2)) := by
  simp [spinOf, pyFloat_natStr, bind, Except.bind]

theorem isUp_not_dig {c : Char} (h : isUp c = true) : isDig c = false := by
  simp only [isUp, isDig, Bool.and_eq_true, decide_eq_true_eq, Bool.and_eq_false_iff, decide_eq_false_iff_not] at *
  omega

theorem isLow_not_dig {c : Char} (h : isLow c = true) : isDig c = false := by
  simp only [isLow, isDig, Bool.and_eq_true, decide_eq_true_eq, Bool.and_eq_false_iff, decide_eq_false_iff_not] at *
  omega

theorem isUp_ne {c d : Char} (h : isUp c = true) (hd : isUp d = false) : c ≠ d := by
  rintro rfl; simp [h] at hd

theorem isLow_ne {c d : Char} (h : isLow c = true) (hd : isLow d = false) : c ≠ d := by
  rintro rfl; simp [h] at hd

theorem dig_isDot {c : Char} (h : isDig c = true) : isDot c = true := by
  simp only [isDot, bne_iff_ne]; exact isDig_ne h (by decide)

theorem natStr_head (n : Nat) : ∃ a t, natStr n = a :: t ∧ isDig a = true := by
  cases h : natStr n with
  | nil => exact absurd h (natStr_ne n)
  | cons a t => exact ⟨a, t, rfl, natStr_dig n a (by simp [h])⟩

/-- Text of a half-integer: characters. -/
theorem fracText_chars {q : ℚ} (h : IsHalfInt q) (c : Char) (hc : isDig c = false) (h1 : c ≠ '-') (h2 : c ≠ '/') :
    c ∉ numToFrac q := by
  intro hm
  rcases numToFrac_chars h c hm with h | h | h
  · simp [h] at hc
  · exact h1 h
  · exact h2 h

theorem fracText_dot {q : ℚ} (h : IsHalfInt q) : ∀ x ∈ numToFrac q, isDot x = true := by
  intro x hx
  rcases numToFrac_chars h x hx with h | rfl | rfl
  · exact dig_isDot h
  · decide
  · decide

theorem findall_eq (k : Nat) (r : Re) (s : Str) :
    findall k r s = (scan r s).map (fun m => (List.range k).map (fun i => (m.1 (i + 1)).getD [])) := rfl

/-- A digit run followed by a `q` character cannot be found starting inside a text without `q` characters that is
followed by something neither digit nor `q`. -/
theorem no_digits_then (q : Char → Bool) (b t ds v : Str) (u : Char) (hb : ∀ x ∈ b, q x = false)
    (ht : ∀ x xs, t = x :: xs → isDig x = false ∧ q x = false)
    (hd : ∀ x ∈ ds, isDig x = true) (hu : q u = true) (h : b ++ t = ds ++ u :: v) : False := by
  rw [List.append_eq_append_iff] at h
  rcases h with ⟨a', h1, h2⟩ | ⟨c', h1, h2⟩
  · cases a' with
    | nil =>
      simp at h2
      have := ht u v h2
      simp [hu] at this
    | cons y ys =>
      have := (ht y (ys ++ u :: v) (by simpa using h2)).1
      have h3 := hd y (by simp [h1])
      simp [h3] at this
  · cases c' with
    | nil =>
      simp at h2
      have := ht u v h2.symm
      simp [hu] at this
    | cons y ys =>
      simp at h2
      have := hb y (by simp [h1])
      rw [← h2.1, hu] at this
      simp at this

theorem lang_plus {p : Char → Bool} {w : Str} (h : Lang (plus p) w) : w ≠ [] ∧ ∀ x ∈ w, p x = true := by
  obtain ⟨u, v, rfl, ⟨x, rfl, hx⟩, hv⟩ := h
  refine ⟨by simp, ?_⟩
  intro y hy
  simp at hy
  rcases hy with rfl | hy
  · exact hx
  · exact hv y hy

theorem lang_plusLazy {p : Char → Bool} {w : Str} (h : Lang (plusLazy p) w) : w ≠ [] ∧ ∀ x ∈ w, p x = true := lang_plus h

theorem lang_chr {q : Char} {w : Str} (h : Lang (chr q) w) : w = [q] := by
  obtain ⟨x, rfl, hx⟩ := h
  simp at hx; simp [hx]

/-! ## LS -/

theorem scan_star_nil (r : Re) (h0 : run r [] Caps.none = []) (h1 : run r ['*'] Caps.none = []) (st : Bool) :
    scan r (starText st) = [] := by
  cases st
  · exact scan_nil r h0
  · simp only [starText, if_true]
    rw [scan_skip r '*' [] h1, scan_nil r h0]

theorem findall_LS (n : Nat) (X : Char) (st : Bool) (hX : isUp X = true) :
    findall 2 reLS (natStr n ++ X :: starText st) = [[natStr n, [X]]] := by
  have hd := natStr_dig n
  have hn := natStr_ne n
  have h1 : (run reLS (natStr n ++ X :: starText st) Caps.none).head? =
      some (upd 2 [X] (upd 1 (natStr n) Caps.none), starText st) := by
    refine run_seq_head _ _ _ (X :: starText st) _ (upd 1 (natStr n) Caps.none) _ ?_ ?_
    · refine run_grp_head 1 _ _ _ _ _ (run_plus_head isDig _ _ _ hn hd ?_)
      intro x xs h; simp at h; rw [← h.1]; exact isUp_not_dig hX
    · refine run_grp_head 2 _ [X] (starText st) _ _ ?_
      simp [run, hX]
  rw [findall_eq, scan_match _ _ _ _ h1 (by simp; omega), scan_star_nil]
  · simp [upd, List.range_succ]
  · simp [reLS, rcat, run, plus]
  · simp [reLS, rcat, run, plus, isDig]

theorem coupling_LS (n : Nat) (X : Char) (st : Bool) (hX : isUp X = true) :
    getTermCoupling (natStr n ++ X :: starText st) = .LS := by
  have hno : ∀ c : Char, isDig c = false → isUp c = false → c ≠ '*' → c ∉ natStr n ++ X :: starText st := by
    intro c h1 h2 h3 hm
    simp at hm
    rcases hm with h | h | h
    · have := natStr_dig n c h; simp [this] at h1
    · subst h; simp [hX] at h2
    · cases st <;> simp [starText] at h; exact h3 h
  have a1 := hno '[' (by decide) (by decide) (by decide)
  have a2 := hno '(' (by decide) (by decide) (by decide)
  unfold getTermCoupling
  rw [if_neg a1, if_neg a2, if_pos]
  obtain ⟨a, t, h, _⟩ := natStr_head n
  simp [h]

/-! ## Term parts `{m}[{K}][*]` -/

theorem run_bracket (g : Nat) (K : ℚ) (hK : IsHalfInt K) (rest : Str) (c : Caps) (o cl : Char)
    (hcl : isDig cl = false) (h1 : cl ≠ '-') (h2 : cl ≠ '/') :
    (run (.seq (chr o) (.seq (.grp g (plusLazy isDot)) (chr cl))) (o :: (numToFrac K ++ cl :: rest)) c).head? =
      some (upd g (numToFrac K) c, rest) := by
  refine run_seq_head _ _ _ (numToFrac K ++ cl :: rest) _ c _ ?_ ?_
  · simp [run_chr]
  · refine run_lazy_grp g isDot _ rest cl _ c _ (numToFrac_ne hK) (fracText_dot hK)
      (fracText_chars hK cl hcl h1 h2) ?_ ?_
    · intro x xs c' hx; exact run_chr_ne _ _ _ _ hx
    · simp [run_chr]

theorem findall_JKterm (m : Nat) (K : ℚ) (st : Bool) (hK : IsHalfInt K) :
    findall 2 reJKterm (natStr m ++ '[' :: (numToFrac K ++ ']' :: starText st)) = [[natStr m, numToFrac K]] := by
  have h1 : (run reJKterm (natStr m ++ '[' :: (numToFrac K ++ ']' :: starText st)) Caps.none).head? =
      some (upd 2 (numToFrac K) (upd 1 (natStr m) Caps.none), starText st) := by
    refine run_seq_head _ _ _ ('[' :: (numToFrac K ++ ']' :: starText st)) _ (upd 1 (natStr m) Caps.none) _ ?_ ?_
    · refine run_grp_head 1 _ _ _ _ _ (run_plus_head isDig _ _ _ (natStr_ne m) (natStr_dig m) ?_)
      intro x xs h; simp at h; rw [← h.1]; decide
    · exact run_bracket 2 K hK _ _ _ _ (by decide) (by decide) (by decide)
  rw [findall_eq, scan_match _ _ _ _ h1 (by simp; omega), scan_star_nil]
  · simp [upd, List.range_succ]
  · simp [reJKterm, rcat, run, plus]
  · simp [reJKterm, rcat, run, plus, isDig]

theorem coupling_JK (m : Nat) (r : Str) : getTermCoupling (natStr m ++ '[' :: r) = .JK := by
  obtain ⟨a, t, h, hd⟩ := natStr_head m
  unfold getTermCoupling
  rw [h, if_pos (by simp)]
  have : a ∉ orbitals := by
    intro hm
    have : ∀ d ∈ orbitals, isDig d = false := by decide
    simp [this a hm] at hd
  simp [this]

theorem findall_LKterm (L : Char) (st0 : Bool) (m : Nat) (K : ℚ) (st : Bool) (hL : isUp L = true)
    (hK : IsHalfInt K) :
    findall 3 reLKterm (L :: (starText st0 ++ ' ' :: (natStr m ++ '[' :: (numToFrac K ++ ']' :: starText st)))) =
      [[[L], natStr m, numToFrac K]] := by
  set tail := natStr m ++ '[' :: (numToFrac K ++ ']' :: starText st) with htail
  set c1 : Caps := upd 1 [L] Caps.none with hc1
  have h1 : (run reLKterm (L :: (starText st0 ++ ' ' :: tail)) Caps.none).head? =
      some (upd 3 (numToFrac K) (upd 2 (natStr m) c1), starText st) := by
    refine run_seq_head _ _ _ (starText st0 ++ ' ' :: tail) _ c1 _ ?_ ?_
    · refine run_grp_head 1 _ [L] _ _ _ ?_
      simp [run, hL]
    refine run_seq_head _ _ _ (' ' :: tail) _ c1 _ ?_ ?_
    · cases st0
      · exact run_opt_skip _ _ _ (run_chr_ne _ _ _ _ (by decide))
      · exact run_opt_take _ _ _ _ (by simp [starText, run_chr])
    refine run_seq_head _ _ _ tail _ c1 _ ?_ ?_
    · exact run_opt_take _ _ _ _ (by simp [run_chr])
    refine run_seq_head _ _ _ ('[' :: (numToFrac K ++ ']' :: starText st)) _ (upd 2 (natStr m) c1) _ ?_ ?_
    · rw [htail]
      refine run_grp_head 2 _ _ _ _ _ (run_plus_head isDig _ _ _ (natStr_ne m) (natStr_dig m) ?_)
      intro x xs h; simp at h; rw [← h.1]; decide
    · exact run_bracket 3 K hK _ _ _ _ (by decide) (by decide) (by decide)
  rw [findall_eq, scan_match _ _ _ _ h1 (by simp [htail]; omega), scan_star_nil]
  · simp [upd, hc1, List.range_succ]
  · simp [reLKterm, rcat, run]
  · simp [reLKterm, rcat, run, isUp]

theorem coupling_LK {L : Char} {l : Nat} (h : specLetters[l]? = some L) (r : Str) (hr : '[' ∈ r) :
    getTermCoupling (L :: r) = .LK := by
  unfold getTermCoupling
  rw [if_pos (by simp [hr])]
  have : L ∈ orbitals := List.mem_of_getElem? h
  simp [this]

/-! ## Configurations -/

theorem lang_JKconf {w : Str} (h : Lang reJKconf w) :
    ∃ ds u v, w = ds ++ u :: v ∧ ds ≠ [] ∧ (∀ x ∈ ds, isDig x = true) ∧ isUp u = true := by
  obtain ⟨ds, r, rfl, h1, v1, v2, rfl, ⟨u, rfl, hu⟩, _⟩ := h
  obtain ⟨hn, hd⟩ := lang_plus h1
  exact ⟨ds, u, v2, by simp, hn, hd, hu⟩

theorem run_JKconf_nil (b t : Str) (hb : NoUp b) (ht : ∀ x xs, t = x :: xs → isDig x = false ∧ isUp x = false) :
    run reJKconf (b ++ t) Caps.none = [] := by
  apply run_nil_of_lang
  intro w r hw hl
  obtain ⟨ds, u, v, rfl, hn, hd, hu⟩ := lang_JKconf hl
  exact no_digits_then isUp b t ds (v ++ r) u hb ht hd hu (by simp [hw])

theorem scan_JKconf_skip (pre t : Str) (hp : NoUp pre) (ht : ∀ x xs, t = x :: xs → isDig x = false ∧ isUp x = false) :
    scan reJKconf (pre ++ t) = scan reJKconf t := by
  apply scan_skip_list
  intro a b hab _
  exact run_JKconf_nil b t (fun x hx => hp x (by simp [hab, hx])) ht

theorem scan_JKconf_none (pre : Str) (hp : NoUp pre) : scan reJKconf pre = [] := by
  have := scan_JKconf_skip pre [] hp (by simp)
  rw [List.append_nil] at this
  rw [this]
  exact scan_nil _ (by simpa using run_JKconf_nil [] [] (by simp [NoUp]) (by simp))

theorem head_JKconf (n : Nat) (X : Char) (st : Bool) (jc : ℚ) (rest : Str) (hX : isUp X = true) (hj : IsHalfInt jc) :
    (run reJKconf (natStr n ++ X :: (starText st ++ '<' :: (numToFrac jc ++ '>' :: rest))) Caps.none).head? =
      some (upd 3 (numToFrac jc) (upd 2 [X] (upd 1 (natStr n) Caps.none)), rest) := by
  refine run_seq_head _ _ _ (X :: (starText st ++ '<' :: (numToFrac jc ++ '>' :: rest))) _ (upd 1 (natStr n) Caps.none) _ ?_ ?_
  · refine run_grp_head 1 _ _ _ _ _ (run_plus_head isDig _ _ _ (natStr_ne n) (natStr_dig n) ?_)
    intro x xs h; simp at h; rw [← h.1]; exact isUp_not_dig hX
  refine run_seq_head _ _ _ (starText st ++ '<' :: (numToFrac jc ++ '>' :: rest)) _
    (upd 2 [X] (upd 1 (natStr n) Caps.none)) _ ?_ ?_
  · refine run_grp_head 2 _ [X] _ _ _ ?_
    simp [run, hX]
  refine run_seq_head _ _ _ ('<' :: (numToFrac jc ++ '>' :: rest)) _ (upd 2 [X] (upd 1 (natStr n) Caps.none)) _ ?_ ?_
  · cases st
    · exact run_opt_skip _ _ _ (run_chr_ne _ _ _ _ (by decide))
    · exact run_opt_take _ _ _ _ (by simp [starText, run_chr])
  · exact run_opt_take _ _ _ _ (run_bracket 3 jc hj rest _ _ _ (by decide) (by decide) (by decide))

theorem head_JKconf_plain (n : Nat) (X : Char) (st : Bool) (rest : Str) (hX : isUp X = true) :
    (run reJKconf (natStr n ++ X :: (starText st ++ ')' :: rest)) Caps.none).head? =
      some (upd 2 [X] (upd 1 (natStr n) Caps.none), ')' :: rest) := by
  refine run_seq_head _ _ _ (X :: (starText st ++ ')' :: rest)) _ (upd 1 (natStr n) Caps.none) _ ?_ ?_
  · refine run_grp_head 1 _ _ _ _ _ (run_plus_head isDig _ _ _ (natStr_ne n) (natStr_dig n) ?_)
    intro x xs h; simp at h; rw [← h.1]; exact isUp_not_dig hX
  refine run_seq_head _ _ _ (starText st ++ ')' :: rest) _ (upd 2 [X] (upd 1 (natStr n) Caps.none)) _ ?_ ?_
  · refine run_grp_head 2 _ [X] _ _ _ ?_
    simp [run, hX]
  refine run_seq_head _ _ _ (')' :: rest) _ (upd 2 [X] (upd 1 (natStr n) Caps.none)) _ ?_ ?_
  · cases st
    · exact run_opt_skip _ _ _ (run_chr_ne _ _ _ _ (by decide))
    · exact run_opt_take _ _ _ _ (by simp [starText, run_chr])
  · exact run_opt_skip _ _ _ (run_seq_chr_nil _ _ _ _ _ (by decide))

theorem scan_core (pre : Str) (n : Nat) (X : Char) (st : Bool) (jc : ℚ) (rest : Str) (hp : NoUp pre)
    (hX : isUp X = true) (hj : IsHalfInt jc) :
    ∃ w, scan reJKconf (pre ++ coreText n X st jc ++ rest) =
      (upd 3 (numToFrac jc) (upd 2 [X] (upd 1 (natStr n) Caps.none)), w) :: scan reJKconf (')' :: rest) := by
  have e : pre ++ coreText n X st jc ++ rest =
      pre ++ '(' :: (natStr n ++ X :: (starText st ++ '<' :: (numToFrac jc ++ '>' :: (')' :: rest)))) := by
    simp [coreText]
  rw [e, scan_JKconf_skip pre _ hp (by intro x xs h; simp at h; rw [← h.1]; decide)]
  rw [scan_skip]
  · have h := head_JKconf n X st jc (')' :: rest) hX hj
    exact ⟨_, scan_match _ _ _ _ h (by simp; omega)⟩
  · simp [reJKconf, rcat, run, plus, isDig]

theorem findall_JKconf (pre mid : Str) (n : Nat) (X : Char) (st : Bool) (jc : ℚ) (hp : NoUp pre) (hm : NoUp mid)
    (hX : isUp X = true) (hj : IsHalfInt jc) :
    findall 3 reJKconf (pre ++ coreText n X st jc ++ mid) = [[natStr n, [X], numToFrac jc]] := by
  obtain ⟨w, h⟩ := scan_core pre n X st jc mid hp hX hj
  rw [findall_eq, h, scan_JKconf_none]
  · simp [upd, List.range_succ]
  · intro x hx; simp at hx
    rcases hx with rfl | hx
    · decide
    · exact hm x hx

theorem findall_JKconf2 (pre mid post : Str) (n : Nat) (X : Char) (st : Bool) (jc : ℚ) (n2 : Nat) (X2 : Char)
    (st2 : Bool) (hp : NoUp pre) (hm : NoUp mid) (hq : NoUp post)
    (hX : isUp X = true) (hX2 : isUp X2 = true) (hj : IsHalfInt jc) :
    findall 3 reJKconf (pre ++ coreText n X st jc ++ (mid ++ ancText n2 X2 st2 ++ post)) =
      [[natStr n, [X], numToFrac jc], [natStr n2, [X2], []]] := by
  obtain ⟨w, h⟩ := scan_core pre n X st jc (mid ++ ancText n2 X2 st2 ++ post) hp hX hj
  have e : ')' :: (mid ++ ancText n2 X2 st2 ++ post) =
      (')' :: mid) ++ '(' :: (natStr n2 ++ X2 :: (starText st2 ++ ')' :: post)) := by simp [ancText]
  have hm' : NoUp (')' :: mid) := by
    intro x hx; simp at hx
    rcases hx with rfl | hx
    · decide
    · exact hm x hx
  have hq' : NoUp (')' :: post) := by
    intro x hx; simp at hx
    rcases hx with rfl | hx
    · decide
    · exact hq x hx
  rw [findall_eq, h, e, scan_JKconf_skip _ _ hm' (by intro x xs h; simp at h; rw [← h.1]; decide), scan_skip]
  · rw [scan_match _ _ _ _ (head_JKconf_plain n2 X2 st2 post hX2) (by simp; omega), scan_JKconf_none _ hq']
    simp [upd, List.range_succ, Caps.none]
  · simp [reJKconf, rcat, run, plus, isDig]

/-! ### LK configurations -/

theorem lang_LKconf {w : Str} (h : Lang reLKconf w) :
    ∃ ds u v, w = '(' :: (ds ++ u :: v) ∧ (∀ x ∈ ds, isDig x = true) ∧ isUp u = true := by
  obtain ⟨a, r, rfl, h0, ds, r2, rfl, h1, v1, v2, rfl, ⟨u, rfl, hu⟩, _⟩ := h
  obtain ⟨hn, hd⟩ := lang_plus h1
  rw [lang_chr h0]
  exact ⟨ds, u, v2, by simp, hd, hu⟩

theorem run_LKconf_nil (b t : Str) (hb : NoUp b) (hbn : b ≠ [])
    (ht : ∀ x xs, t = x :: xs → isDig x = false ∧ isUp x = false) :
    run reLKconf (b ++ t) Caps.none = [] := by
  apply run_nil_of_lang
  intro w r hw hl
  obtain ⟨ds, u, v, rfl, hd, hu⟩ := lang_LKconf hl
  cases b with
  | nil => exact hbn rfl
  | cons y ys =>
    simp at hw
    exact no_digits_then isUp ys t ds (v ++ r) u (fun x hx => hb x (by simp [hx])) ht hd hu hw.2

theorem scan_LKconf_skip (pre t : Str) (hp : NoUp pre) (ht : ∀ x xs, t = x :: xs → isDig x = false ∧ isUp x = false) :
    scan reLKconf (pre ++ t) = scan reLKconf t := by
  apply scan_skip_list
  intro a b hab hb
  exact run_LKconf_nil b t (fun x hx => hp x (by simp [hab, hx])) hb ht

theorem scan_LKconf_none (pre : Str) (hp : NoUp pre) : scan reLKconf pre = [] := by
  have := scan_LKconf_skip pre [] hp (by simp)
  rw [List.append_nil] at this
  rw [this]
  exact scan_nil _ (by simp [reLKconf, rcat, run, chr])

theorem findall_LKconf (pre mid : Str) (n : Nat) (X : Char) (st : Bool) (hp : NoUp pre) (hm : NoUp mid)
    (hX : isUp X = true) :
    findall 2 reLKconf (pre ++ ancText n X st ++ mid) = [[natStr n, [X]]] := by
  have e : pre ++ ancText n X st ++ mid = pre ++ '(' :: (natStr n ++ X :: (starText st ++ ')' :: mid)) := by
    simp [ancText]
  have h1 : (run reLKconf ('(' :: (natStr n ++ X :: (starText st ++ ')' :: mid))) Caps.none).head? =
      some (upd 2 [X] (upd 1 (natStr n) Caps.none), mid) := by
    refine run_seq_head _ _ _ _ _ Caps.none _ (by rw [run_chr]; rfl) ?_
    refine run_seq_head _ _ _ (X :: (starText st ++ ')' :: mid)) _ (upd 1 (natStr n) Caps.none) _ ?_ ?_
    · refine run_grp_head 1 _ _ _ _ _ (run_plus_head isDig _ _ _ (natStr_ne n) (natStr_dig n) ?_)
      intro x xs h; simp at h; rw [← h.1]; exact isUp_not_dig hX
    refine run_seq_head _ _ _ (starText st ++ ')' :: mid) _ (upd 2 [X] (upd 1 (natStr n) Caps.none)) _ ?_ ?_
    · refine run_grp_head 2 _ [X] _ _ _ ?_
      simp [run, hX]
    refine run_seq_head _ _ _ (')' :: mid) _ (upd 2 [X] (upd 1 (natStr n) Caps.none)) _ ?_ ?_
    · cases st
      · exact run_opt_skip _ _ _ (run_chr_ne _ _ _ _ (by decide))
      · exact run_opt_take _ _ _ _ (by simp [starText, run_chr])
    · rw [show rcat [chr ')'] = chr ')' from rfl, run_chr]; rfl
  rw [findall_eq, e, scan_LKconf_skip pre _ hp (by intro x xs h; simp at h; rw [← h.1]; decide),
    scan_match _ _ _ _ h1 (by simp; omega), scan_LKconf_none _ hm]
  simp [upd, List.range_succ]

/-! ### JJ groups -/

/-- The text has no `)<` and no `)*<`. -/
def NoCL (T : Str) : Prop := ∀ a st v, T ≠ a ++ ')' :: (starText st ++ '<' :: v)

theorem NoCL_nil : NoCL [] := by intro a st v h; simp at h

theorem NoCL_noClose (u T : Str) (hu : ')' ∉ u) (hT : NoCL T) : NoCL (u ++ T) := by
  intro a st v h
  rw [List.append_eq_append_iff] at h
  rcases h with ⟨a', _, h2⟩ | ⟨c', h1, h2⟩
  · exact hT _ _ _ h2
  · cases c' with
    | nil => exact hT [] st v (by simpa using h2.symm)
    | cons y ys => simp at h2; exact hu (by simp [h1, ← h2.1])

theorem NoCL_noLt (p T : Str) (hp : '<' ∉ p) (hT : NoCL T)
    (h0 : ∀ x xs, T = x :: xs → x ≠ '<' ∧ x ≠ '*') : NoCL (p ++ T) := by
  intro a st v h
  rw [List.append_eq_append_iff] at h
  rcases h with ⟨a', _, h2⟩ | ⟨c', h1, h2⟩
  · exact hT _ _ _ h2
  · cases c' with
    | nil => exact hT [] st v (by simpa using h2.symm)
    | cons y ys =>
      simp at h2
      obtain ⟨rfl, h2⟩ := h2
      have hys : '<' ∉ ys := fun hm => hp (by simp [h1, hm])
      cases st
      · simp [starText] at h2
        cases ys with
        | nil => simp at h2; exact (h0 '<' v h2.symm).1 rfl
        | cons z zs => simp at h2; exact hys (by simp [← h2.1])
      · simp [starText] at h2
        cases ys with
        | nil => simp at h2; exact (h0 '*' ('<' :: v) h2.symm).2 rfl
        | cons z zs =>
          simp at h2
          cases zs with
          | nil => simp at h2; exact (h0 '<' v h2.2.symm).1 rfl
          | cons z2 zs2 => simp at h2; exact hys (by simp [← h2.2.1])

theorem NoCL_suffix {u T : Str} (h : NoCL (u ++ T)) : NoCL T := by
  intro a st v hT
  exact h (u ++ a) st v (by simp [hT])

theorem lang_optstar {v : Str} (h : Lang (.opt (chr '*')) v) : ∃ st, v = starText st := by
  rcases h with rfl | h
  · exact ⟨false, rfl⟩
  · exact ⟨true, by rw [lang_chr h]; rfl⟩

theorem lang_JJ {w : Str} (h : Lang reJJ w) :
    (∃ d m v, w = d :: m ++ '<' :: v ∧ isDig d = true ∧ '(' ∉ m) ∨
    (∃ a st v, w = a ++ ')' :: (starText st ++ '<' :: v)) := by
  obtain ⟨a, r, rfl, halt, s, r2, rfl, hs, l, r3, rfl, hl, _⟩ := h
  obtain ⟨st, rfl⟩ := lang_optstar hs
  rw [lang_chr hl]
  rcases halt with ⟨ds, q, rfl, h1, x, rfl, hx⟩ | ⟨q, r4, rfl, _, p, r5, rfl, _, h5⟩
  · left
    obtain ⟨hn, hd⟩ := lang_plus h1
    cases ds with
    | nil => exact absurd rfl hn
    | cons d ds =>
      refine ⟨d, ds ++ x :: starText st, r3, by simp, hd d (by simp), ?_⟩
      intro hm
      simp at hm
      rcases hm with hm | hm | hm
      · have := hd '(' (by simp [hm]); revert this; decide
      · subst hm; revert hx; decide
      · cases st <;> simp [starText] at hm
  · right
    rw [lang_chr h5]
    exact ⟨q ++ p, st, r3, by simp⟩

theorem run_JJ_nil (b t : Str) (hb : '<' ∉ b) (hcl : NoCL (b ++ t))
    (ht : ∀ x xs, t = x :: xs → x = '(') : run reJJ (b ++ t) Caps.none = [] := by
  apply run_nil_of_lang
  intro w r hw hl
  rcases lang_JJ hl with ⟨d, m, v, rfl, hd, hm⟩ | ⟨a, st, v, rfl⟩
  · have h : b ++ t = (d :: m) ++ ('<' :: (v ++ r)) := by simpa using hw
    rw [List.append_eq_append_iff] at h
    have hdm : '(' ∉ d :: m := by
      intro h'
      simp at h'
      rcases h' with h' | h'
      · rw [← h'] at hd; revert hd; decide
      · exact hm h'
    rcases h with ⟨a', h1, h2⟩ | ⟨c', h1, h2⟩
    · cases a' with
      | nil => simp at h2; have := ht _ _ h2; revert this; decide
      | cons y ys =>
        have := ht y _ (by simpa using h2)
        exact hdm (by rw [h1]; simp [this])
    · cases c' with
      | nil => simp at h2; have := ht _ _ h2.symm; revert this; decide
      | cons y ys => simp at h2; exact hb (by rw [h1]; simp [← h2.1])
  · exact hcl a st (v ++ r) (by simpa using hw)

theorem scan_JJ_skip (pre t : Str) (hp : '<' ∉ pre) (hcl : NoCL (pre ++ t))
    (ht : ∀ x xs, t = x :: xs → x = '(') : scan reJJ (pre ++ t) = scan reJJ t := by
  apply scan_skip_list
  intro a b hab _
  refine run_JJ_nil b t (fun h => hp (by simp [hab, h])) ?_ ht
  rw [hab, List.append_assoc] at hcl
  exact NoCL_suffix hcl

theorem scan_JJ_none (pre : Str) (hp : '<' ∉ pre) : scan reJJ pre = [] := by
  have hcl : NoCL (pre ++ []) := NoCL_noLt pre [] hp NoCL_nil (by simp)
  have := scan_JJ_skip pre [] hp hcl (by simp)
  rw [List.append_nil] at this
  rw [this]
  exact scan_nil _ (by simp [reJJ, rcat, run, plus, chr])

/-- Letters of a JJ group, either case. -/
def isLet (c : Char) : Bool := isUp c || isLow c

theorem isLet_not_dig {c : Char} (h : isLet c = true) : isDig c = false := by
  simp only [isLet, Bool.or_eq_true] at h
  rcases h with h | h
  · exact isUp_not_dig h
  · exact isLow_not_dig h

theorem head_JJ (n : Nat) (X : Char) (st : Bool) (j : ℚ) (rest : Str) (hX : isLet X = true) (hj : IsHalfInt j) :
    (run reJJ (natStr n ++ X :: (starText st ++ '<' :: (numToFrac j ++ '>' :: rest))) Caps.none).head? =
      some (upd 3 (numToFrac j) (upd 2 [X] (upd 1 (natStr n) Caps.none)), rest) := by
  refine run_seq_head _ _ _ (starText st ++ '<' :: (numToFrac j ++ '>' :: rest)) _
    (upd 2 [X] (upd 1 (natStr n) Caps.none)) _ ?_ ?_
  · refine run_alt_left _ _ _ _ _ ?_
    refine run_seq_head _ _ _ (X :: (starText st ++ '<' :: (numToFrac j ++ '>' :: rest))) _ (upd 1 (natStr n) Caps.none) _ ?_ ?_
    · refine run_grp_head 1 _ _ _ _ _ (run_plus_head isDig _ _ _ (natStr_ne n) (natStr_dig n) ?_)
      intro x xs h; simp at h; rw [← h.1]; exact isLet_not_dig hX
    · refine run_grp_head 2 _ [X] _ _ _ ?_
      have : (isUp X || isLow X) = true := hX
      simp only [run, List.cons_append, List.nil_append, this, if_true]; rfl
  refine run_seq_head _ _ _ ('<' :: (numToFrac j ++ '>' :: rest)) _ (upd 2 [X] (upd 1 (natStr n) Caps.none)) _ ?_ ?_
  · cases st
    · exact run_opt_skip _ _ _ (run_chr_ne _ _ _ _ (by decide))
    · exact run_opt_take _ _ _ _ (by simp [starText, run_chr])
  · exact run_bracket 3 j hj rest _ _ _ (by decide) (by decide) (by decide)

theorem NoCL_group (n : Nat) (X : Char) (st : Bool) (j : ℚ) (rest : Str) (hX : isLet X = true) (hj : IsHalfInt j)
    (hr : NoCL rest) : NoCL (natStr n ++ X :: (starText st ++ '<' :: (numToFrac j ++ '>' :: rest))) := by
  have e : natStr n ++ X :: (starText st ++ '<' :: (numToFrac j ++ '>' :: rest)) =
      (natStr n ++ X :: (starText st ++ '<' :: (numToFrac j ++ ['>']))) ++ rest := by simp
  rw [e]
  refine NoCL_noClose _ _ ?_ hr
  intro h
  simp at h
  rcases h with h | h | h | h
  · have := natStr_dig n _ h; revert this; decide
  · subst h; revert hX; decide
  · cases st <;> simp [starText] at h
  · exact fracText_chars hj ')' (by decide) (by decide) (by decide) h

theorem findall_JJ (p0 p1 p2 : Str) (n1 : Nat) (X1 : Char) (st1 : Bool) (j1 : ℚ) (n2 : Nat) (X2 : Char) (st2 : Bool)
    (j2 : ℚ) (h0 : '<' ∉ p0) (h1 : '<' ∉ p1) (h2 : '<' ∉ p2)
    (hX1 : isLet X1 = true) (hX2 : isLet X2 = true) (hj1 : IsHalfInt j1) (hj2 : IsHalfInt j2) :
    findall 3 reJJ (p0 ++ coreText n1 X1 st1 j1 ++ p1 ++ coreText n2 X2 st2 j2 ++ p2) =
      [[natStr n1, [X1], numToFrac j1], [natStr n2, [X2], numToFrac j2]] := by
  set G2 : Str := natStr n2 ++ X2 :: (starText st2 ++ '<' :: (numToFrac j2 ++ '>' :: (')' :: p2))) with hG2
  set G1 : Str := natStr n1 ++ X1 :: (starText st1 ++ '<' :: (numToFrac j1 ++ '>' :: ((')' :: p1) ++ '(' :: G2))) with hG1
  have e : p0 ++ coreText n1 X1 st1 j1 ++ p1 ++ coreText n2 X2 st2 j2 ++ p2 = p0 ++ '(' :: G1 := by
    simp [coreText, hG1, hG2]
  have hp2 : '<' ∉ ')' :: p2 := by simp [h2]
  have hp1 : '<' ∉ ')' :: p1 := by simp [h1]
  have dig_head : ∀ n : Nat, ∀ r : Str, ∀ x xs, natStr n ++ r = x :: xs → x ≠ '<' ∧ x ≠ '*' := by
    intro n r x xs h
    obtain ⟨a, t, ha, hd⟩ := natStr_head n
    rw [ha] at h; simp at h; rw [← h.1]
    exact ⟨isDig_ne hd (by decide), isDig_ne hd (by decide)⟩
  have c3 : NoCL (')' :: p2) := by simpa using NoCL_noLt (')' :: p2) [] hp2 NoCL_nil (by simp)
  have cG2 : NoCL G2 := NoCL_group n2 X2 st2 j2 _ hX2 hj2 c3
  have c2 : NoCL ((')' :: p1) ++ '(' :: G2) := by
    have := NoCL_noLt ((')' :: p1) ++ ['(']) G2 (by simp [h1]) cG2 (dig_head n2 _)
    simpa using this
  have cG1 : NoCL G1 := NoCL_group n1 X1 st1 j1 _ hX1 hj1 c2
  have c1 : NoCL (p0 ++ '(' :: G1) := by
    have := NoCL_noLt (p0 ++ ['(']) G1 (by simp [h0]) cG1 (dig_head n1 _)
    simpa using this
  have skipP : ∀ G : Str, NoCL ('(' :: G) → run reJJ ('(' :: G) Caps.none = [] := by
    intro G hc
    apply run_nil_of_lang
    intro w r hw hl
    rcases lang_JJ hl with ⟨d, m, v, rfl, hd, _⟩ | ⟨a, st, v, rfl⟩
    · simp at hw; rw [← hw.1] at hd; revert hd; decide
    · exact hc a st (v ++ r) (by simpa using hw)
  have ho : ∀ (G : Str), ∀ x xs, '(' :: G = x :: xs → x = '(' := by intro G x xs h; simp at h; exact h.1.symm
  rw [findall_eq, e, scan_JJ_skip p0 _ h0 c1 (ho _), scan_skip _ _ _ (skipP _ (NoCL_suffix c1)),
    scan_match _ _ _ _ (head_JJ n1 X1 st1 j1 _ hX1 hj1) (by simp; omega),
    scan_JJ_skip _ _ hp1 c2 (ho _), scan_skip _ _ _ (skipP _ (NoCL_suffix c2)),
    scan_match _ _ _ _ (head_JJ n2 X2 st2 j2 _ hX2 hj2) (by simp; omega), scan_JJ_none _ hp2]
  simp [upd, List.range_succ]

end AtomTk
