import Verif.Props.Nist

/-! # What NIST writes around the cells of its table: C110 -/

namespace AtomTk.Nist
open Regex

/-- What NIST puts around the text of a cell: blanks, `=`, quotes and question marks. -/
def Deco (s : Str) : Prop := ∀ c ∈ s, c = ' ' ∨ c = '=' ∨ c = '"' ∨ c = '?'

/-- A text that neither begins nor ends with such a character. -/
def Bare (s : Str) : Prop := ∀ c, s.head? = some c ∨ s.getLast? = some c → c ≠ ' ' ∧ c ≠ '=' ∧ c ≠ '"' ∧ c ≠ '?'

theorem dropWhile_pre {p : Char → Bool} {a : Str} (h : ∀ c ∈ a, p c = true) (b : Str) : (a ++ b).dropWhile p = b.dropWhile p := by
  induction a with
  | nil => rfl
  | cons c a ih =>
    rw [List.cons_append, List.dropWhile_cons_of_pos (h c (by simp))]
    exact ih (fun d hd => h d (by simp [hd]))

theorem dropWhile_id {p : Char → Bool} {s : Str} (h : ∀ c, s.head? = some c → p c = false) : s.dropWhile p = s := by
  cases s with
  | nil => rfl
  | cons c s => rw [List.dropWhile_cons_of_neg (by simp [h c rfl])]

theorem stripBy_pad {p : Char → Bool} {a b s : Str} (ha : ∀ c ∈ a, p c = true) (hb : ∀ c ∈ b, p c = true) :
    stripBy p (a ++ s ++ b) = stripBy p s := by
  unfold stripBy
  rw [List.append_assoc, dropWhile_pre ha]
  by_cases h : s.dropWhile p = []
  · have hs : ∀ c ∈ s, p c = true := List.dropWhile_eq_nil_iff.1 h
    rw [dropWhile_pre hs, h, List.dropWhile_eq_nil_iff.2 hb]
  · have e : (s ++ b).dropWhile p = s.dropWhile p ++ b := by
      rw [List.dropWhile_append, if_neg (by simpa using h)]
    rw [e, List.reverse_append, dropWhile_pre (by simpa using hb)]

theorem deco_iff {s : Str} : Deco s ↔ ∀ c ∈ s, (c == ' ' || c == '=' || c == '"' || c == '?') = true := by
  unfold Deco
  simp [or_assoc]

theorem strip_pad {a b s : Str} (ha : Deco a) (hb : Deco b) : strip (a ++ s ++ b) = strip s :=
  stripBy_pad (deco_iff.1 ha) (deco_iff.1 hb)

theorem bare_iff {c : Char} : (c ≠ ' ' ∧ c ≠ '=' ∧ c ≠ '"' ∧ c ≠ '?') ↔ (c == ' ' || c == '=' || c == '"' || c == '?') = false := by
  simp [and_assoc]

theorem strip_bare {s : Str} (h : Bare s) : strip s = s := by
  unfold strip stripBy
  rw [dropWhile_id (fun c hc => bare_iff.1 (h c (.inl hc)))]
  rw [dropWhile_id (fun c hc => bare_iff.1 (h c (.inr (by rwa [List.head?_reverse] at hc)))), List.reverse_reverse]

/-- C110: the text of a cell is what stands between the decoration. -/
theorem C110_text (a s b : Str) (ha : Deco a) (hb : Deco b) (hs : Bare s) : cell (some (a ++ s ++ b)) = .ok s := by
  show Except.ok (strip (a ++ s ++ b)) = _
  rw [strip_pad ha hb, strip_bare hs]

theorem head_dropWhile {p : Char → Bool} {s : Str} {c : Char} (h : (s.dropWhile p).head? = some c) : p c = false := by
  have := List.head?_dropWhile_not p s
  rw [h] at this
  simpa using this

/-- C110: every cell is read so. -/
theorem C110_every (s : Str) : ∃ a t b, s = a ++ t ++ b ∧ Deco a ∧ Deco b ∧ Bare t ∧ cell (some s) = .ok t := by
  set p : Char → Bool := fun c => c == ' ' || c == '=' || c == '"' || c == '?' with hp
  have e1 : s.takeWhile p ++ s.dropWhile p = s := List.takeWhile_append_dropWhile
  have e2 : (s.dropWhile p).reverse.takeWhile p ++ (s.dropWhile p).reverse.dropWhile p = (s.dropWhile p).reverse :=
    List.takeWhile_append_dropWhile
  have e3 : s.dropWhile p = strip s ++ ((s.dropWhile p).reverse.takeWhile p).reverse := by
    have := congrArg List.reverse e2
    rw [List.reverse_append, List.reverse_reverse] at this
    exact this.symm
  refine ⟨s.takeWhile p, strip s, ((s.dropWhile p).reverse.takeWhile p).reverse, ?_, ?_, ?_, ?_, rfl⟩
  · rw [List.append_assoc, ← e3, e1]
  · exact deco_iff.2 (fun c hc => List.mem_takeWhile_imp (p := p) hc)
  · exact deco_iff.2 (fun c hc => List.mem_takeWhile_imp (p := p) (List.mem_reverse.1 hc))
  · rintro c (hc | hc)
    · refine bare_iff.2 (head_dropWhile (s := s) (p := p) ?_)
      rw [e3]
      cases hS : strip s with
      | nil => rw [hS] at hc; cases hc
      | cons d S => rw [hS] at hc; exact hc
    · refine bare_iff.2 (head_dropWhile (s := (s.dropWhile p).reverse) (p := p) ?_)
      rw [← List.getLast?_reverse]
      exact hc

/-- The same cell with other decoration. -/
def SameCell (c d : Option Str) : Prop := (c = none ∧ d = none) ∨
  ∃ a b a' b' s, Deco a ∧ Deco b ∧ Deco a' ∧ Deco b' ∧ c = some (a ++ s ++ b) ∧ d = some (a' ++ s ++ b')

theorem SameCell.cell {c d : Option Str} (h : SameCell c d) : cell c = cell d := by
  rcases h with ⟨rfl, rfl⟩ | ⟨a, b, a', b', s, h1, h2, h3, h4, rfl, rfl⟩
  · rfl
  · show Except.ok (strip (a ++ s ++ b)) = Except.ok (strip (a' ++ s ++ b'))
    rw [strip_pad h1 h2, strip_pad h3 h4]

/-- The same row with other decoration. -/
structure SameRow (r r' : RawRow) : Prop where
  conf : SameCell r.conf r'.conf
  term : SameCell r.term r'.term
  J : SameCell r.J r'.J
  level : SameCell r.level r'.level
  lande : SameCell r.lande r'.lande
  pct : SameCell r.pct r'.pct

theorem SameRow.mid {r r' : RawRow} (h : SameRow r r') (hl hp : Bool) : midRow hl hp r = midRow hl hp r' := by
  unfold midRow landeOf pctOf
  rw [h.conf.cell, h.term.cell, h.J.cell, h.level.cell, h.lande.cell, h.pct.cell]

/-- C110: the decoration of the cells changes nothing in the result, nor in the exception raised. -/
theorem C110_decoration (rs rs' : List RawRow) (h : List.Forall₂ SameRow rs rs') (hl hp : Bool) : clean ⟨rs, hl, hp⟩ = clean ⟨rs', hl, hp⟩ := by
  have : rs.mapM (midRow hl hp) = rs'.mapM (midRow hl hp) := by
    induction h with
    | nil => rfl
    | cons a _ ih => rw [List.mapM_cons, List.mapM_cons, ih, a.mid]
  unfold clean
  simp only
  rw [this]

/-- C110: the configurations in the result are undecorated texts of cells. -/
theorem C110_shown (rs : List RawRow) (hl hp : Bool) (out : List OutRow) (h : clean ⟨rs, hl, hp⟩ = .ok out) :
    ∀ o ∈ out, Bare o.conf ∧ ∃ r ∈ rs, ∃ a b, Deco a ∧ Deco b ∧ r.conf = some (a ++ o.conf ++ b) := by
  obtain ⟨rows, n, h1, -, rfl⟩ := clean_inv h
  intro o ho
  simp only [List.mem_flatMap, List.mem_filter, numbered, List.mem_filterMap, Option.map_eq_some_iff] at ho
  obtain ⟨⟨k, x⟩, ⟨⟨p, hp', x', hx, hpx⟩, -⟩, ho⟩ := ho
  cases hpx
  have hm : some x ∈ rows := by
    obtain ⟨k, hk, e⟩ := List.mem_iff_getElem.1 hp'
    rw [List.getElem_zipIdx] at e
    rw [← hx, ← e]
    exact List.getElem_mem _
  obtain ⟨r, hr, hg⟩ := forall₂_mem h1 hm
  have hc : x.conf = text r.conf := ((gives_text hg).1 x rfl).1
  obtain ⟨j, rfl⟩ := mem_splitJ ho
  obtain ⟨m, c2, h2, -, -⟩ := hg
  have : ∃ s, r.conf = some s := by
    unfold midRow at h2
    obtain ⟨a1, h3, -⟩ := bind_ok_inv h2
    cases hr : r.conf with
    | none => rw [hr] at h3; cases h3
    | some s => exact ⟨s, rfl⟩
  obtain ⟨s, hs⟩ := this
  obtain ⟨a, t, b, e1, e2, e3, e4, e5⟩ := C110_every s
  have ht : text r.conf = t := by rw [hs]; exact cell_text e5
  simp only
  rw [hc, ht]
  exact ⟨e4, r, hr, a, b, e2, e3, by rw [hs, e1]⟩

/-- C110: the levels and Lande factors in the result are the numbers in the cells of one row; where the table has no column of Lande factors, or the
cell is no number, the factor is missing. -/
theorem C110_numbers (rs : List RawRow) (hl hp : Bool) (out : List OutRow) (h : clean ⟨rs, hl, hp⟩ = .ok out) :
    ∀ o ∈ out, ∃ r ∈ rs, toNumeric (text r.level) = some o.level ∧ o.lande = (if hl = true then toNumeric (text r.lande) else none) := by
  obtain ⟨rows, n, h1, -, rfl⟩ := clean_inv h
  intro o ho
  simp only [List.mem_flatMap, List.mem_filter, numbered, List.mem_filterMap, Option.map_eq_some_iff] at ho
  obtain ⟨⟨k, x⟩, ⟨⟨p, hp', x', hx, hpx⟩, -⟩, ho⟩ := ho
  cases hpx
  have hm : some x ∈ rows := by
    obtain ⟨k, hk, e⟩ := List.mem_iff_getElem.1 hp'
    rw [List.getElem_zipIdx] at e
    rw [← hx, ← e]
    exact List.getElem_mem _
  obtain ⟨r, hr, hg⟩ := forall₂_mem h1 hm
  obtain ⟨j, rfl⟩ := mem_splitJ ho
  obtain ⟨m, c2, h2, -, h4⟩ := hg
  refine ⟨r, hr, ?_⟩
  unfold midRow at h2
  obtain ⟨a1, -, h2⟩ := bind_ok_inv h2
  obtain ⟨a2, -, h2⟩ := bind_ok_inv h2
  obtain ⟨a3, -, h2⟩ := bind_ok_inv h2
  obtain ⟨a4, e4, h2⟩ := bind_ok_inv h2
  obtain ⟨a5, e5, h2⟩ := bind_ok_inv h2
  obtain ⟨a6, -, h2⟩ := bind_ok_inv h2
  cases h2
  simp only [mkMid] at h4
  cases hlev : toNumeric a4 with
  | none => rw [hlev] at h4; cases h4
  | some l =>
    rw [hlev] at h4
    have h5 := Option.some.inj h4
    have hlv : x.level = l := congrArg OutRow.level h5
    have hla : x.lande = a5 := congrArg OutRow.lande h5
    refine ⟨?_, ?_⟩
    · rw [cell_text e4, hlev]
      exact congrArg some hlv.symm
    · show x.lande = _
      rw [hla]
      unfold landeOf at e5
      cases hl with
      | false => exact (Except.ok.inj e5).symm
      | true =>
        simp only [if_true] at e5 ⊢
        cases hc : cell r.lande with
        | error e => rw [hc] at e5; cases e5
        | ok c => rw [hc] at e5; cases e5; rw [cell_text hc]

/-- NIST's spelling of a cell. -/
example : cell (some "=\"4f14.6s?\"".toList) = .ok "4f14.6s".toList :=
  C110_text "=\"".toList "4f14.6s".toList "?\"".toList (by unfold Deco; decide +kernel) (by unfold Deco; decide +kernel)
    (by rintro c (h | h) <;> (cases h; decide))

example : ∃ out, clean ⟨[orDemo, limitRow], true, true⟩ = .ok out ∧ out.length = 2 := by
  cases h : clean ⟨[orDemo, limitRow], true, true⟩ with
  | ok out =>
    refine ⟨out, rfl, ?_⟩
    have : ((clean ⟨[orDemo, limitRow], true, true⟩).toOption.map List.length) = some 2 := by decide +kernel
    rw [h] at this
    exact Option.some.inj this
  | error e =>
    have : (clean ⟨[orDemo, limitRow], true, true⟩).isOk = true := by decide +kernel
    rw [h] at this
    cases this

end AtomTk.Nist
