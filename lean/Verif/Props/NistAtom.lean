import Verif.Props.Cells
import Verif.Props.Table
import Verif.Props.Parse
import Verif.Proofs.Decimal

/-! # From the table NIST returns to the atom: C153 -/

namespace AtomTk.Nist
open AtomTk Regex Util

/-! ## What the table says -/

/-- A cell with the text `s`, with or without NIST's marks around it. -/
def HasText (c : Option Str) (s : Str) : Prop := ∃ a b, Deco a ∧ Deco b ∧ Bare s ∧ c = some (a ++ s ++ b)

/-- A line of NIST's list of levels: the configuration, the LS term, the possible values of `J`, the wave number in cm⁻¹, and the
Lande factor if there is one. -/
structure NLine where
  conf : Str
  mult : Nat
  l : Nat
  odd : Bool
  js : List ℚ
  cm : ℚ
  lande : Option ℚ

/-- The term symbol of a line. -/
def NLine.sym (d : NLine) : Str := natStr d.mult ++ specLetters.getD d.l 'S' :: starText d.odd

/-- The name of the level of a line with the value `J`. -/
def NLine.lname (d : NLine) (J : ℚ) : Str := d.conf ++ ' ' :: (d.sym ++ numToFrac J)

/-- The names of the levels of a list of lines. -/
def lineNames (ds : List NLine) : List Str := ds.flatMap fun d => d.js.map d.lname

/-- A cell of leading percentages whose second component, if there is one, has an LS term and no greater percentage than the first. -/
def Percents (s : Str) : Prop := ':' ∉ s ∨ ∃ (p q n l : Nat) (c : Str) (X : Char) (st : Bool),
  Leading s p (some (q, c, some (natStr n ++ X :: starText st))) ∧ specLetters[l]? = some X ∧ q ≤ p

/-- A row of the table that writes a line. -/
structure Writes (hl hp : Bool) (r : RawRow) (d : NLine) : Prop where
  conf : HasText r.conf d.conf
  letter : d.l < specLetters.length
  term : HasText r.term d.sym
  js : ∃ s, HasText r.J s ∧ JText s d.js
  cm : ∃ s, HasText r.level s ∧ Decimal s d.cm
  lande : ∀ g, d.lande = some g → hl = true ∧ ∃ s, HasText r.lande s ∧ Decimal s g
  pct : hp = true → ∃ s, HasText r.pct s ∧ Percents s

/-- A row that marks an ionization limit: the term `Limit`, and a number for the level. -/
def LimitRow (r : RawRow) : Prop := HasText r.term "Limit".toList ∧ ∃ s x, HasText r.level s ∧ Decimal s x

/-! ## The cleaned rows -/

theorem HasText.cell {c : Option Str} {s : Str} (h : HasText c s) : cell c = .ok s := by
  obtain ⟨a, b, ha, hb, hs, rfl⟩ := h
  exact C110_text a s b ha hb hs

theorem HasText.text {c : Option Str} {s : Str} (h : HasText c s) : text c = s := cell_text h.cell

theorem search_pct_none {s : Str} (h : ':' ∉ s) : search? rePct s = none := by
  have key : ∀ s : Str, ':' ∉ s → match? rePct s = none := by
    intro s hs
    unfold match?
    rw [run_nil_of_lang rePct s _ (fun w t e hL => ?_)]
    · rfl
    · simp only [rePct, rcat, Lang] at hL
      obtain ⟨_, _, rfl, _, _, _, rfl, _, _, _, rfl, _, _, _, rfl, _, _, _, rfl, _, _, _, rfl, _, u, v, rfl, hu, _⟩ := hL
      simp only [chr, Lang] at hu
      obtain ⟨z, rfl, hz⟩ := hu
      have : z = ':' := by simpa using hz
      subst this
      exact hs (by rw [e]; simp)
  induction s with
  | nil => simp [search?, key [] h]
  | cons x xs ih =>
    simp only [search?, key _ h]
    exact ih (fun hx => h (by simp [hx]))

theorem toNumeric_ok {s : Str} {x : ℚ} (h : Decimal s x) : toNumeric s = some x := by
  unfold toNumeric
  rw [pyFloat_decimal h]
  rfl

theorem sym_nospace (d : NLine) (h : d.l < specLetters.length) : ' ' ∉ d.sym := by
  unfold NLine.sym
  intro hm
  rcases List.mem_append.1 hm with hm | hm
  · exact absurd (natStr_dig _ _ hm) (by decide)
  · rcases List.mem_cons.1 hm with hm | hm
    · have : ∀ l < specLetters.length, specLetters.getD l 'S' ≠ ' ' := by decide
      exact this _ h hm.symm
    · cases hd : d.odd <;> rw [hd] at hm <;> revert hm <;> decide

theorem sym_head (d : NLine) : ∃ x xs, d.sym = x :: xs ∧ isDig x = true := by
  cases h : natStr d.mult with
  | nil => exact absurd h (natStr_ne _)
  | cons a t => exact ⟨a, _, by unfold NLine.sym; rw [h]; rfl, natStr_dig d.mult a (by simp [h])⟩

theorem termOf_sym (d : NLine) (h : d.l < specLetters.length) (p : Str) : termOf d.sym p = some d.sym := by
  unfold termOf
  have e : reSub reLabel [] d.sym = d.sym := sub_plain (sym_nospace d h) _
  obtain ⟨x, xs, e', hx⟩ := sym_head d
  simp only [e]
  rw [if_neg]
  rintro (h0 | h0)
  · rw [e'] at h0; cases h0
  · rw [e'] at h0
    cases h0
    revert hx
    decide

/-- The cleaned row of a line. -/
structure Cleaned (d : NLine) (s : Str) (o : OutRow) : Prop where
  conf : o.conf = d.conf
  term : o.term = d.sym
  J : o.J = s
  level : o.level = d.cm
  lande : ∀ g, d.lande = some g → o.lande = some g
  second : o.conf2 = none ∨ ∃ (n l : Nat) (c : Str) (X : Char) (st : Bool) (q : ℚ), o.conf2 = some c ∧
    o.term2 = natStr n ++ X :: starText st ∧ specLetters[l]? = some X ∧ o.pct2 = some q ∧ q ≤ o.pct

/-- What a row of the table gives. -/
def Gives2 (hl hp : Bool) (r : RawRow) (o : Option OutRow) : Prop :=
  ∃ m m' c2, midRow hl hp r = .ok m ∧ (m' = m ∨ m' = jjRow m) ∧ reconstituteConf m.conf m.conf2 = .ok c2 ∧ o = m.level.map (mkOut m' c2)

theorem jjRow_rest (m : Mid) : (jjRow m).conf = m.conf ∧ (jjRow m).conf2 = m.conf2 ∧ (jjRow m).level = m.level := by
  unfold jjRow
  split <;> exact ⟨rfl, rfl, rfl⟩

theorem jjTerms_rows (ms : List Mid) : List.Forall₂ (fun m m' => m' = m ∨ m' = jjRow m) ms (jjTerms ms) := by
  unfold jjTerms
  split
  · exact List.forall₂_same.2 (fun m _ => .inl rfl)
  · rename_i h
    clear h
    induction ms with
    | nil => exact .nil
    | cons m ms ih => exact .cons (.inr rfl) ih

theorem clean_inv2 {t : Raw} {out : List OutRow} (h : clean t = .ok out) :
    ∃ rows n, List.Forall₂ (Gives2 t.hasLande t.hasPct) t.rows rows ∧ limitLabel (numbered rows) = .ok n ∧
      out = ((numbered rows).filter fun p => p.1 < n).flatMap fun p => splitJ p.2 := by
  unfold clean at h
  cases h1 : t.rows.mapM (midRow t.hasLande t.hasPct) with
  | error e => rw [h1] at h; cases h
  | ok ms =>
    rw [h1] at h
    cases h2 : (jjTerms ms).mapM outRow with
    | error e => simp only [bind, Except.bind, h2] at h; cases h
    | ok rows =>
      simp only [bind, Except.bind, h2] at h
      cases h3 : limitLabel (numbered rows) with
      | error e => unfold numbered at h3; rw [h3] at h; cases h
      | ok n =>
        refine ⟨rows, n, ?_, h3, ?_⟩
        · have a1 := (mapM_forall₂ _ _).1 h1
          have a2 := jjTerms_rows ms
          have a3 := (mapM_forall₂ _ _).1 h2
          clear h h1 h2 h3
          generalize jjTerms ms = ms' at a2 a3
          generalize t.rows = rs at a1 ⊢
          induction a1 generalizing rows ms' with
          | nil => cases a2; cases a3; exact .nil
          | cons b1 b2 ih =>
            cases a2 with
            | cons c1 c2 => cases a3 with
              | cons d1 d2 =>
                refine .cons ?_ (ih _ _ c2 d2)
                rename_i r m rs ms m' o ms' os
                obtain ⟨c2, e1, e2⟩ := outRow_inv d1
                have hm : m'.conf = m.conf ∧ m'.conf2 = m.conf2 ∧ m'.level = m.level := by
                  rcases c1 with rfl | rfl
                  · exact ⟨rfl, rfl, rfl⟩
                  · exact jjRow_rest m
                rw [hm.1, hm.2.1] at e1
                rw [hm.2.2] at e2
                exact ⟨m, m', c2, b1, c1, e1, e2⟩
        · unfold numbered at h3 ⊢
          rw [h3] at h
          cases h
          rfl

theorem Gives2.gives {hl hp : Bool} {r : RawRow} {o : Option OutRow} (h : Gives2 hl hp r o) : Gives hl hp r o := by
  obtain ⟨m, m', c2, h1, h2, h3, rfl⟩ := h
  refine ⟨m, c2, h1, h3, ?_⟩
  have : ∀ l, blank (mkOut m' c2 l) = blank (mkOut m c2 l) := by
    intro l
    rcases h2 with rfl | rfl
    · rfl
    · unfold jjRow
      split <;> rfl
  cases m.level with
  | none => rfl
  | some l => exact congrArg some (this l)

/-- The middle columns of a row that writes a line. -/
theorem mid_of_writes {hl hp : Bool} {r : RawRow} {d : NLine} {m : Mid} (h : Writes hl hp r d) (h1 : midRow hl hp r = .ok m) :
    ∃ s, JText s d.js ∧ m.conf = d.conf ∧ m.term = some d.sym ∧ m.J = s ∧ m.level = some d.cm ∧ (∀ g, d.lande = some g → m.lande = some g) ∧
      jjRow m = m ∧ (m.conf2 = none ∨ ∃ (p q n l : Nat) (c : Str) (X : Char) (st : Bool), m.pct = some (natStr p) ∧ m.pct2 = some (natStr q) ∧
        m.conf2 = some c ∧ m.term2 = some (natStr n ++ X :: starText st) ∧ specLetters[l]? = some X ∧ q ≤ p) := by
  obtain ⟨s, hs, hj⟩ := h.js
  obtain ⟨e, he, hx⟩ := h.cm
  have hpct : ∃ t, pctOf hp r = .ok t ∧ Percents t := by
    unfold pctOf
    cases hp with
    | false => exact ⟨_, rfl, .inl (by decide)⟩
    | true =>
      obtain ⟨t, a, b⟩ := h.pct rfl
      exact ⟨t, a.cell, b⟩
  obtain ⟨t, ht1, ht2⟩ := hpct
  unfold midRow at h1
  simp only [h.conf.cell, h.term.cell, hs.cell, he.cell, ht1, bind, Except.bind] at h1
  cases hla : landeOf hl r with
  | error er => rw [hla] at h1; cases h1
  | ok la =>
    rw [hla] at h1
    cases h1
    have hlan : ∀ g, d.lande = some g → la = some g := by
      intro g hg
      obtain ⟨rfl, u, hu, hn⟩ := h.lande g hg
      simp only [landeOf, if_true, hu.cell] at hla
      cases hla
      exact toNumeric_ok hn
    refine ⟨s, hj, rfl, termOf_sym d h.letter _, rfl, toNumeric_ok hx, hlan, ?_⟩
    rcases ht2 with ht2 | ⟨p, q, n, l, c, X, st, hL, hX, hq⟩
    · have e : search? rePct t = none := search_pct_none ht2
      constructor
      · simp [jjRow, mkMid, e]
      · left
        simp [mkMid, e]
    · have key : ∀ {s p q c u}, Leading s p (some (q, c, some u)) →
          search? rePct s = some (Regex.upd 4 u (Regex.upd 3 c (Regex.upd 2 (natStr q) (Regex.upd 1 (natStr p) Caps.none)))) := by
        intro s p q c u hL
        cases hL with
        | full p m d q e c f t hm hc ht => exact search_full hm hc ht
      have e := key hL
      constructor
      · simp [jjRow, mkMid, e, Regex.upd]
      · right
        exact ⟨p, q, n, l, c, X, st, by simp [mkMid, e, Regex.upd], by simp [mkMid, e, Regex.upd], by simp [mkMid, e, Regex.upd],
          by simp [mkMid, e, Regex.upd], hX, hq⟩

theorem reconstitute_some {a b : Str} {c : Option Str} (h : reconstituteConf a (some b) = .ok c) : ∃ x, c = some x := by
  unfold reconstituteConf at h
  simp only at h
  split at h
  · cases hp : pyFormat (reSub reGroup "({})".toList a) ((findall 1 reGroup b).map fun g => g.headD []) with
    | error e => rw [hp] at h; cases h
    | ok y => rw [hp] at h; cases h; exact ⟨_, rfl⟩
  · split at h <;> cases h <;> exact ⟨_, rfl⟩

theorem cleaned_of_gives {hl hp : Bool} {r : RawRow} {d : NLine} {o : Option OutRow} (h : Writes hl hp r d) (hg : Gives2 hl hp r o) :
    ∃ x s, o = some x ∧ JText s d.js ∧ Cleaned d s x := by
  obtain ⟨m, m', c2, h1, h2, h3, rfl⟩ := hg
  obtain ⟨s, k1, k2, k3, k4, k5, k6, k7, k8⟩ := mid_of_writes h h1
  rw [k7, or_self] at h2
  subst h2
  refine ⟨mkOut m' c2 d.cm, s, by rw [k5]; rfl, k1, k2, by show m'.term.getD [] = _; rw [k3]; rfl, k4, rfl, k6, ?_⟩
  rcases k8 with k8 | ⟨p, q, n, l, c, X, st, q1, q2, q3, q4, q5, q6⟩
  · left
    rw [k8] at h3
    cases h3
    rfl
  · right
    rw [q3] at h3
    obtain ⟨x, rfl⟩ := reconstitute_some h3
    refine ⟨n, l, x, X, st, q, rfl, by show m'.term2.getD [] = _; rw [q4]; rfl, q5, ?_, ?_⟩
    · show m'.pct2.bind toNumeric = _
      rw [q2]
      exact toNumeric_natStr q
    · show (q : ℚ) ≤ (m'.pct.bind toNumeric).getD 100
      rw [q1]
      show (q : ℚ) ≤ (toNumeric (natStr p)).getD 100
      rw [toNumeric_natStr]
      show (q : ℚ) ≤ (p : ℚ)
      exact_mod_cast q6

theorem isLimit_of_row {hp : Bool} {r : RawRow} (h : LimitRow r) : IsLimit hp r := by
  obtain ⟨h1, s, x, h2, h3⟩ := h
  constructor
  · rw [h2.text, toNumeric_ok h3]
    rfl
  · rw [h1.text]
    generalize (if hp then text r.pct else "100.0".toList) = p
    have e : reSub reLabel [] "Limit".toList = "Limit".toList := by decide +kernel
    unfold termOf
    simp only [e]
    rfl

theorem not_limit_of_writes {hl hp : Bool} {r : RawRow} {d : NLine} (h : Writes hl hp r d) : ¬IsLimit hp r := by
  rintro ⟨-, h2⟩
  rw [h.term.text, termOf_sym d h.letter] at h2
  obtain ⟨x, xs, e, hx⟩ := sym_head d
  rw [e] at h2
  cases h2
  revert hx
  decide

theorem clean_prefix {hl hp : Bool} {rs rest : List RawRow} {lim : RawRow} {out : List OutRow} (hn : ∀ r ∈ rs, ¬IsLimit hp r)
    (hlim : IsLimit hp lim) (h : clean ⟨rs ++ lim :: rest, hl, hp⟩ = .ok out) :
    ∃ os, List.Forall₂ (Gives2 hl hp) rs os ∧ out = (os.filterMap id).flatMap splitJ := by
  obtain ⟨rows, n, h1, h2, h3⟩ := clean_inv2 h
  obtain ⟨o1, o2, hf1, hf2, rfl⟩ := forall₂_append h1
  cases hf2 with
  | cons g1 g2 =>
    rename_i o os
    cases o with
    | none =>
      have := (gives_text g1.gives).2 rfl
      have h0 := hlim.1
      rw [this] at h0
      cases h0
    | some x =>
      have hno : ∀ y, some y ∈ o1 → y.term ≠ "Limit".toList := by
        intro y hy
        obtain ⟨r', hr', hg⟩ := forall₂_mem hf1 hy
        rw [Ne, isLimit_of_gives hg.gives]
        exact hn r' hr'
      obtain ⟨c1, c2⟩ := cut_at o1 os x ((isLimit_of_gives g1.gives).2 hlim) hno
      rw [c1] at h2
      cases h2
      refine ⟨o1, hf1, ?_⟩
      rw [← c2, List.flatMap_map]
      exact h3

/-! ## The terms of the cleaned rows -/

/-- The term of the level of a line. -/
def NLine.term (d : NLine) (J pct : ℚ) : Term :=
  ⟨d.conf, d.sym, some J, none, none, pct, { l := some (d.l : ℚ), s := some (((d.mult : ℚ) - 1) / 2) }⟩

theorem NLine.term_name (d : NLine) (J pct : ℚ) : (d.term J pct).name = d.lname J := by
  simp [NLine.term, NLine.lname, Term.name, Term.termName, Term.fracText]

theorem mk_LS {conf j : Str} {n l : Nat} {X : Char} {st : Bool} (hX : specLetters[l]? = some X) {J : ℚ} (pct : ℚ)
    (hj : fracToFloat (.str j) = .ok (some J)) : Term.mk' conf (natStr n ++ X :: starText st) (.str j) .none .none pct =
      .ok ⟨conf, natStr n ++ X :: starText st, some J, none, none, pct, { l := some (l : ℚ), s := some (((n : ℚ) - 1) / 2) }⟩ := by
  obtain ⟨t, h1, -, h2, h3, h4, h5, h6⟩ := C04_LS conf n l X st hX (some J) none none pct
  have : Term.mk' conf (natStr n ++ X :: starText st) (.num J) .none .none pct = .ok t := h1
  unfold Term.mk' at this ⊢
  simp only [hj]
  simp only [fracToFloat, bind, Except.bind] at this ⊢
  cases hq : getQuantumNums conf (natStr n ++ X :: starText st) with
  | error e => rw [hq] at this; cases this
  | ok q =>
    rw [hq] at this
    cases this
    cases h2
    rfl

theorem row_of_cleaned {d : NLine} {s : Str} {o : OutRow} (hl : d.l < specLetters.length) (h : Cleaned d s o) (nan : ℚ) {j : Str} {J : ℚ}
    (hj : fracToFloat (.str j) = .ok (some J)) : (OutRow.toRow { o with J := j } nan).term = .ok (d.term J o.pct) := by
  have hX : specLetters[d.l]? = some (specLetters.getD d.l 'S') := by
    rw [List.getD_eq_getElem?_getD, List.getElem?_eq_getElem hl]
    rfl
  have hm : Term.mk' d.conf d.sym (.str j) .none .none o.pct = .ok (d.term J o.pct) := mk_LS hX o.pct hj
  unfold Row.term OutRow.toRow
  rcases h.second with h2 | ⟨n, l, c, X, st, q, h2, h3, h4, h5, h6⟩
  · simp only [Row.terms, h.conf, h.term, h2, hm, bind, Except.bind]
    rfl
  · simp only [Row.terms, h.conf, h.term, h2, h3, h5, hm, bind, Except.bind, Option.getD_some, mk_LS h4 q hj]
    unfold MultiTerm.mk'
    rw [pySorted_of_pairwise]
    · rfl
    · simpa [NLine.term] using h6

theorem rows_of_cleaned {d : NLine} {s : Str} {o : OutRow} (hl : d.l < specLetters.length) (h : Cleaned d s o) (hJ : JText s d.js)
    (nan : ℚ) : List.Forall₂ (fun r J => (∃ pct, Row.term r = .ok (d.term J pct)) ∧ r.level = 29979245800 * d.cm ∧
      (∀ g, d.lande = some g → r.lande = g)) ((splitJ o).map fun x => x.toRow nan) d.js := by
  have hs := split_J hJ (s.length + 1) (by omega) false
  simp only [Bool.false_eq_true, if_false, List.nil_append] at hs
  unfold splitJ pyReplace
  rw [h.J, List.map_map]
  clear hJ
  generalize splitOn1 ',' (replaceF " or".toList [','] (s.length + 1) s) = l at hs
  generalize d.js = js at hs
  induction hs with
  | nil => exact .nil
  | cons a1 a2 ih =>
    refine .cons ⟨?_, ?_, ?_⟩ ih
    · obtain ⟨k, hk, rfl, hq⟩ := a1
      refine ⟨o.pct, row_of_cleaned hl h nan ?_⟩
      rcases (by omega : k = 0 ∨ k = 1) with rfl | rfl
      · exact frac_roundtrip hq
      · rw [show sp 1 ++ numToFrac _ = ' ' :: numToFrac _ from rfl, frac_space (numToFrac_ne hq)]
        exact frac_roundtrip hq
    · show o.level * 29979245800 = _
      rw [h.level, mul_comm]
    · intro g hg
      show o.lande.getD nan = g
      rw [h.lande g hg]
      rfl

/-! ## C153 -/

/-- The lines of a list with their values of `J`, one after the other. -/
def lineTerms (ds : List NLine) : List (NLine × ℚ) := ds.flatMap fun d => d.js.map fun J => (d, J)

theorem all_rows {hl hp : Bool} {rs : List RawRow} {ds : List NLine} {os : List (Option OutRow)} (h : List.Forall₂ (Writes hl hp) rs ds)
    (hg : List.Forall₂ (Gives2 hl hp) rs os) (nan : ℚ) :
    List.Forall₂ (fun r (p : NLine × ℚ) => (∃ pct, Row.term r = .ok (p.1.term p.2 pct)) ∧ r.level = 29979245800 * p.1.cm ∧
        (∀ g, p.1.lande = some g → r.lande = g))
      (((os.filterMap id).flatMap splitJ).map fun x => x.toRow nan) (lineTerms ds) := by
  induction h generalizing os with
  | nil => cases hg; exact .nil
  | cons h1 h2 ih =>
    cases hg with
    | cons g1 g2 =>
      rename_i r d rs ds o os
      obtain ⟨x, s, rfl, hJ, hc⟩ := cleaned_of_gives h1 g1
      simp only [lineTerms, List.filterMap_cons, id, List.flatMap_cons, List.map_append]
      refine List.rel_append ?_ (ih g2)
      have := rows_of_cleaned h1.letter hc hJ nan
      rw [List.forall₂_map_right_iff]
      exact this

/-- C153: the atom made from NIST's table has exactly the levels of the lines above the first ionization limit, one for each value of
`J`, in the order of the table.  A level is named by configuration, term symbol and `J`, lies at `c` times its wave number, and has the
`J`, the `L`, the `S` and the Lande factor of its line.  Whatever stands below the limit is left out. -/
theorem C153_atom (hl hp : Bool) (rs rest : List RawRow) (lim : RawRow) (ds : List NLine) (out : List OutRow) (I B nan : ℚ)
    (h : List.Forall₂ (Writes hl hp) rs ds) (hlim : LimitRow lim) (hc : clean ⟨rs ++ lim :: rest, hl, hp⟩ = .ok out)
    (hd : (lineNames ds).Nodup) :
    ∃ w, World.fromDataframe (tableOf (out.map fun o => o.toRow nan)) I B none = (w, .ok ()) ∧ w.I = I ∧ w.levelNames = lineNames ds ∧
      ∀ d ∈ ds, ∀ J ∈ d.js, ∃ k, w.g.lev (d.lname J) = some k ∧ w.eHz k = 29979245800 * d.cm ∧ (w.lv k).term.J = some J ∧
        (w.lv k).term.qn.l = some (d.l : ℚ) ∧ (w.lv k).term.qn.s = some (((d.mult : ℚ) - 1) / 2) ∧
        ∀ g, d.lande = some g → (w.lv k).lande = g := by
  obtain ⟨os, hg, rfl⟩ := clean_prefix (fun r hr => by
    obtain ⟨d, -, hw⟩ := forall₂_mem h.flip hr
    exact not_limit_of_writes hw) (isLimit_of_row hlim) hc
  have ha := all_rows h hg nan
  generalize (((os.filterMap id).flatMap splitJ).map fun x => x.toRow nan) = rows at ha ⊢
  obtain ⟨ts, hts, hn⟩ : ∃ ts : List Term, rows.map Row.term = ts.map Except.ok ∧
      List.Forall₂ (fun t (p : NLine × ℚ) => ∃ pct, t = p.1.term p.2 pct) ts (lineTerms ds) := by
    generalize lineTerms ds = ps at ha
    induction ha with
    | nil => exact ⟨[], rfl, .nil⟩
    | cons a1 _ ih =>
      obtain ⟨ts, i1, i2⟩ := ih
      obtain ⟨⟨pct, a1⟩, -⟩ := a1
      exact ⟨_ :: ts, by rw [List.map_cons, List.map_cons, i1, a1], .cons ⟨pct, rfl⟩ i2⟩
  have hnm : ts.map Term.name = lineNames ds := by
    have : lineNames ds = (lineTerms ds).map fun p => p.1.lname p.2 := by
      simp only [lineTerms, lineNames, List.map_flatMap, List.map_map]
      rfl
    rw [this]
    clear hts this
    generalize lineTerms ds = ps at hn
    induction hn with
    | nil => rfl
    | cons a1 _ ih =>
      obtain ⟨pct, rfl⟩ := a1
      rw [List.map_cons, List.map_cons, ih, NLine.term_name]
  have hlen : rows.length = (lineTerms ds).length := ha.length_eq
  obtain ⟨w, e1, e2, e3, e4⟩ := C50_loaded_partial rows ts hts (by rw [hnm]; exact hd) I B none
  refine ⟨w, e1, e2, ?_, ?_⟩
  · rw [e3, ← hnm, Option.getD_none, List.take_of_length_le (by rw [hlen, hn.length_eq])]
  · intro d hdm J hJ
    have hm : (d, J) ∈ lineTerms ds := List.mem_flatMap.2 ⟨d, hdm, List.mem_map.2 ⟨J, hJ, rfl⟩⟩
    obtain ⟨i, hi, ei⟩ := List.mem_iff_getElem.1 hm
    have hi' : i < rows.length := by rw [hlen]; exact hi
    have := List.Forall₂.get ha hi' hi
    simp only [List.get_eq_getElem, ei] at this
    obtain ⟨b1, b2, b3⟩ := this
    have hi2 : i < ts.length := by rw [hn.length_eq]; exact hi
    have := List.Forall₂.get hn hi2 hi
    simp only [List.get_eq_getElem, ei] at this
    obtain ⟨pct, e5⟩ := this
    obtain ⟨k, k1, k2, k3, k4, -⟩ := e4 i rows[i] (d.term J pct) (by simpa using hi') (List.getElem?_eq_getElem hi')
      (by rw [List.getElem?_eq_getElem hi2, e5])
    rw [d.term_name] at k1
    refine ⟨k, k1, by rw [k3, b2], by rw [k2]; rfl, by rw [k2]; rfl, by rw [k2]; rfl, fun g hg => by rw [k4, b3 g hg]⟩

/-! ## A table that meets the hypotheses -/

theorem hasText_of {c : Option Str} (a s b : Str) (h : (∀ x ∈ a ++ b, x = ' ' ∨ x = '=' ∨ x = '"' ∨ x = '?') ∧
    (∀ x ∈ s.head?.toList ++ s.getLast?.toList, x ≠ ' ' ∧ x ≠ '=' ∧ x ≠ '"' ∧ x ≠ '?') ∧ c = some (a ++ s ++ b)) : HasText c s := by
  obtain ⟨h1, h2, h3⟩ := h
  refine ⟨a, b, fun x hx => h1 x (by simp [hx]), fun x hx => h1 x (by simp [hx]), fun x hx => h2 x ?_, h3⟩
  rcases hx with hx | hx <;> simp [hx]

/-- Three lines of a table: one without decorations, one with two values of `J`, one with a second component. -/
def demoLines : List NLine :=
  [⟨"4f14.6s".toList, 2, 0, false, [1 / 2], 0, some 2⟩, ⟨"4f14.6p".toList, 2, 1, true, [1 / 2, 3 / 2], 27061.82, none⟩,
   ⟨"4f14.5d".toList, 2, 2, false, [3 / 2], 22960.8, some 0.8⟩]

def demoTable : List RawRow :=
  [⟨some "4f14.6s".toList, some "2S".toList, some "1/2".toList, some "0.00".toList, some "2.0".toList, some []⟩,
   ⟨some "=\"4f14.6p\"".toList, some "=\"2P*\"".toList, some "=\"1/2 or 3/2\"".toList, some "=\"27061.82?\"".toList, some "=\"\"".toList,
     some "=\"98\"".toList⟩,
   ⟨some "=\"4f14.5d\"".toList, some "=\"2D\"".toList, some "=\"3/2\"".toList, some "=\"22960.8\"".toList, some "=\"0.8\"".toList,
     some "=\"90    :   5  4f13.6s 2F*\"".toList⟩]

theorem demoTable_writes : List.Forall₂ (Writes true true) demoTable demoLines := by
  refine .cons ⟨hasText_of [] _ [] (by decide +kernel), by decide, hasText_of [] _ [] (by decide +kernel), ⟨"1/2".toList, hasText_of [] _ [] (by decide +kernel), ?_⟩,
    ⟨"0.00".toList, hasText_of [] _ [] (by decide +kernel), Decimal.of "0".toList "00".toList (by decide +kernel)⟩, ?_, fun _ => ⟨[], hasText_of [] _ [] (by decide +kernel), .inl (by decide)⟩⟩ ?_
  · have := JText.one (1 / 2 : ℚ) ⟨1, by norm_num⟩
    rwa [show numToFrac (1 / 2 : ℚ) = "1/2".toList by decide +kernel] at this
  · intro g hg
    cases hg
    exact ⟨rfl, "2.0".toList, hasText_of [] _ [] (by decide +kernel), Decimal.of "2".toList "0".toList (by decide +kernel)⟩
  refine .cons ⟨hasText_of "=\"".toList _ "\"".toList (by decide +kernel), by decide, hasText_of "=\"".toList _ "\"".toList (by decide +kernel),
    ⟨"1/2 or 3/2".toList, hasText_of "=\"".toList _ "\"".toList (by decide +kernel), ?_⟩,
    ⟨"27061.82".toList, hasText_of "=\"".toList _ "?\"".toList (by decide +kernel), Decimal.of "27061".toList "82".toList (by decide +kernel)⟩, ?_,
    fun _ => ⟨"98".toList, hasText_of "=\"".toList _ "\"".toList (by decide +kernel), .inl (by decide)⟩⟩ ?_
  · have := JText.more (1 / 2 : ℚ) " or ".toList _ _ ⟨1, by norm_num⟩ (.inr (.inr (.inl rfl))) (JText.one (3 / 2 : ℚ) ⟨3, by norm_num⟩)
    rwa [show numToFrac (1 / 2 : ℚ) ++ (" or ".toList ++ numToFrac (3 / 2 : ℚ)) = "1/2 or 3/2".toList by decide +kernel] at this
  · intro g hg
    cases hg
  refine .cons ⟨hasText_of "=\"".toList _ "\"".toList (by decide +kernel), by decide, hasText_of "=\"".toList _ "\"".toList (by decide +kernel),
    ⟨"3/2".toList, hasText_of "=\"".toList _ "\"".toList (by decide +kernel), ?_⟩,
    ⟨"22960.8".toList, hasText_of "=\"".toList _ "\"".toList (by decide +kernel), Decimal.of "22960".toList "8".toList (by decide +kernel)⟩, ?_,
    fun _ => ⟨"90    :   5  4f13.6s 2F*".toList, hasText_of "=\"".toList _ "\"".toList (by decide +kernel), .inr ?_⟩⟩ .nil
  · have := JText.one (3 / 2 : ℚ) ⟨3, by norm_num⟩
    rwa [show numToFrac (3 / 2 : ℚ) = "3/2".toList by decide +kernel] at this
  · intro g hg
    cases hg
    exact ⟨rfl, "0.8".toList, hasText_of "=\"".toList _ "\"".toList (by decide +kernel), Decimal.of "0".toList "8".toList (by decide +kernel)⟩
  · refine ⟨90, 5, 2, 3, "4f13.6s".toList, 'F', true, ?_, by decide, by decide⟩
    have := Leading.full 90 (sp 4) 3 5 1 "4f13.6s".toList 0 "2F*".toList (.inl ⟨2, rfl⟩) (by unfold Word; decide +kernel) ⟨⟨'2', "F*".toList, rfl, by decide⟩, ⟨'*', "2F".toList, rfl, by decide⟩, by decide, by decide⟩
    rwa [show natStr 90 ++ sp 4 ++ ':' :: (sp 3 ++ natStr 5 ++ sp 2 ++ ("4f13.6s".toList ++ sp 1 ++ "2F*".toList)) =
      "90    :   5  4f13.6s 2F*".toList by decide +kernel] at this

/-- Below the limit stands a row without a readable level. -/
def demoRest : List RawRow := [⟨some "4f14.7s".toList, some "2S".toList, some "1/2".toList, some "[99000]".toList, some [], some []⟩]

example : ∃ out w, clean ⟨demoTable ++ limitRow :: demoRest, true, true⟩ = .ok out ∧
    World.fromDataframe (tableOf (out.map fun o => o.toRow 0)) (1 / 2) 0 none = (w, .ok ()) ∧ w.levelNames = lineNames demoLines ∧
    lineNames demoLines = ["4f14.6s 2S1/2".toList, "4f14.6p 2P*1/2".toList, "4f14.6p 2P*3/2".toList, "4f14.5d 2D3/2".toList] ∧
    ∃ k, w.g.lev "4f14.6p 2P*3/2".toList = some k ∧ w.eHz k = 29979245800 * 27061.82 := by
  have hc : (clean ⟨demoTable ++ limitRow :: demoRest, true, true⟩).toOption.isSome = true := by decide +kernel
  cases h : clean ⟨demoTable ++ limitRow :: demoRest, true, true⟩ with
  | error e => rw [h] at hc; cases hc
  | ok out =>
    have hn : lineNames demoLines = ["4f14.6s 2S1/2".toList, "4f14.6p 2P*1/2".toList, "4f14.6p 2P*3/2".toList, "4f14.5d 2D3/2".toList] := by
      decide +kernel
    obtain ⟨w, h1, -, h3, h4⟩ := C153_atom true true demoTable demoRest limitRow demoLines out (1 / 2) 0 0 demoTable_writes
      ⟨hasText_of [] _ [] (by decide +kernel), "98231.75".toList, 98231.75, hasText_of [] _ [] (by decide +kernel), Decimal.of "98231".toList "75".toList (by decide +kernel)⟩ h
      (by rw [hn]; decide +kernel)
    obtain ⟨k, k1, k2, -⟩ := h4 ⟨"4f14.6p".toList, 2, 1, true, [1 / 2, 3 / 2], 27061.82, none⟩ (by simp [demoLines]) (3 / 2) (by simp)
    refine ⟨out, w, rfl, h1, h3, hn, k, ?_, k2⟩
    rw [← k1]
    congr 1
    decide +kernel

end AtomTk.Nist
