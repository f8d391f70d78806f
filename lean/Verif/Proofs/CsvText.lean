import Verif.Proofs.Csv

/-! # Reading hand-written files -/

namespace AtomTk.Csv

/-! ## What a file says (RFC 4180, with any line ends) -/

/-- The text of a field: bare if it contains no comma, quote or line end, or in quotes with the quotes in it doubled. -/
inductive FieldText : Str → Str → Prop
  | bare (f) : (∀ c ∈ f, c ≠ ',' ∧ c ≠ '"' ∧ c ≠ '\r' ∧ c ≠ '\n') → FieldText f f
  | quoted (f) : FieldText ('"' :: ((f.flatMap fun c => if c = '"' then ['"', '"'] else [c]) ++ ['"'])) f

/-- The text of a row: its fields with commas between them. -/
inductive FieldsText : Str → List Str → Prop
  | one {s f} : FieldText s f → FieldsText s [f]
  | more {s f t fs} : FieldText s f → FieldsText t fs → FieldsText (s ++ ',' :: t) (f :: fs)

/-- A line of a file: the text of a row, nothing for the row without fields. -/
inductive LineText : Str → List Str → Prop
  | empty : LineText [] []
  | row {s fs} : FieldsText s fs → s ≠ [] → LineText s fs

/-- A file: lines that end with `\r\n`, `\n` or `\r`; the last one, if it is not empty, may have no end. -/
inductive FileText : Str → List (List Str) → Prop
  | nil : FileText [] []
  | crlf {s r t rs} : LineText s r → FileText t rs → FileText (s ++ '\r' :: '\n' :: t) (r :: rs)
  | lf {s r t rs} : LineText s r → FileText t rs → FileText (s ++ '\n' :: t) (r :: rs)
  | cr {s r t rs} : LineText s r → FileText t rs → t.head? ≠ some '\n' → FileText (s ++ '\r' :: t) (r :: rs)
  | last {s r} : LineText s r → s ≠ [] → FileText s [r]

/-! ## Reading it -/

/-- What the reader gives for the rest of a line and of the file. -/
def tail (r : Rd) (s : Str) : List (List Str) :=
  if s = [] then (if r.eol.st = .startRecord then [r.eol.fields] else readLines r.eol []) else rest r s

theorem tail_cons {c : Char} (h : isNl c = false) (cs : Str) (r : Rd) : tail r (c :: cs) = tail (r.step c) cs := by
  unfold tail
  rw [if_neg (by simp)]
  by_cases hc : cs = []
  · subst hc
    rw [if_pos rfl]
    unfold rest
    rw [splitLines_cons h, splitLines]
    show (if (r.step c).eol.st = .startRecord then (r.step c).eol.fields :: readLines .reset [] else readLines (r.step c).eol []) = _
    rfl
  · rw [if_neg hc, rest_cons h hc]

theorem tail_quoted {c : Char} (h : c ≠ '"') (cs : Str) (f : Str) (fs : List Str) :
    tail ⟨.inQuoted, f, fs⟩ (c :: cs) = tail ⟨.inQuoted, f ++ [c], fs⟩ cs := by
  by_cases hn : isNl c = false
  · rw [tail_cons hn]; simp [Rd.step, Rd.add, h]
  · by_cases hc : cs = []
    · subst hc
      simp only [isNl, Bool.not_eq_false, Bool.or_eq_true, beq_iff_eq] at hn
      rcases hn with rfl | rfl <;> simp [tail, rest, splitLines, readLines, Rd.step, Rd.add, Rd.eol]
    · unfold tail
      rw [if_neg (by simp), if_neg hc, rest_quoted h hc]

theorem tail_escape (f t : Str) (g : Str) (fs : List Str) :
    tail ⟨.inQuoted, g, fs⟩ ((f.flatMap fun c => if c = '"' then ['"', '"'] else [c]) ++ '"' :: t) = tail ⟨.quoteInQuoted, g ++ f, fs⟩ t := by
  induction f generalizing g with
  | nil =>
    rw [List.flatMap_nil, List.nil_append, tail_cons rfl]
    simp [Rd.step]
  | cons c cs ih =>
    rw [List.flatMap_cons]
    by_cases hc : c = '"'
    · subst hc
      simp only [if_true, List.cons_append, List.nil_append]
      rw [tail_cons rfl, tail_cons rfl]
      simp only [Rd.step, Rd.add, if_true]
      rw [ih]; simp
    · simp only [if_neg hc, List.cons_append, List.nil_append]
      rw [tail_quoted hc, ih]; simp

theorem tail_plain (f : Str) (hf : ∀ c ∈ f, c ≠ ',' ∧ c ≠ '"' ∧ c ≠ '\r' ∧ c ≠ '\n') (t : Str) (g : Str) (fs : List Str) :
    tail ⟨.inField, g, fs⟩ (f ++ t) = tail ⟨.inField, g ++ f, fs⟩ t := by
  induction f generalizing g with
  | nil => simp
  | cons c cs ih =>
    obtain ⟨h1, h2, h3, h4⟩ := hf c (by simp)
    have hn : isNl c = false := by simp [isNl, h3, h4]
    rw [List.cons_append, tail_cons hn]
    simp only [Rd.step, hn, Rd.add, if_neg h1, Bool.false_eq_true, if_false]
    rw [ih (fun c hc => hf c (by simp [hc]))]; simp

theorem tail_field {r : Rd} {fs : List Str} (hr : Fresh r fs) {s f : Str} (h : FieldText s f) (t : Str) :
    ∃ r', Done r' f fs ∧ (r'.st = .startRecord → r.st = .startRecord ∧ s = []) ∧ tail r (s ++ t) = tail r' t := by
  obtain ⟨st, fld, flds⟩ := r
  obtain ⟨h1, h2, h3⟩ := hr
  simp only at h1 h2 h3
  subst h1 h2
  have hstart : ∀ c, isNl c = false → (⟨st, [], flds⟩ : Rd).step c = (⟨st, [], flds⟩ : Rd).start c := by
    intro c hc
    rcases h3 with rfl | ⟨rfl, _⟩ <;> simp [Rd.step, hc]
  cases h with
  | quoted f =>
    refine ⟨⟨.quoteInQuoted, f, flds⟩, ⟨rfl, rfl, by simp⟩, by simp, ?_⟩
    simp only [List.cons_append, List.append_assoc, List.nil_append]
    rw [tail_cons rfl, hstart _ rfl]
    simp only [Rd.start, isNl, show ('"' == '\n' || '"' == '\r') = false from rfl, Bool.false_eq_true, if_false, if_true]
    rw [tail_escape f]; simp
  | bare f hq =>
    cases s with
    | nil =>
      refine ⟨⟨st, [], flds⟩, ⟨rfl, rfl, ?_⟩, fun h => ⟨h, rfl⟩, rfl⟩
      rcases h3 with rfl | ⟨rfl, rfl⟩ <;> simp
    | cons c cs =>
      refine ⟨⟨.inField, c :: cs, flds⟩, ⟨rfl, rfl, by simp⟩, by simp, ?_⟩
      obtain ⟨h1, h2, h4, h5⟩ := hq c (by simp)
      have hn : isNl c = false := by simp [isNl, h4, h5]
      rw [List.cons_append, tail_cons hn, hstart c hn]
      simp only [Rd.start, hn, Bool.false_eq_true, if_false, if_neg h2, if_neg h1, Rd.add]
      rw [tail_plain cs (fun c hc => hq c (by simp [hc]))]; simp

theorem tail_comma {r : Rd} {f : Str} {fs : List Str} (hr : Done r f fs) (t : Str) :
    ∃ r', Fresh r' (fs ++ [f]) ∧ r'.st = .startField ∧ tail r (',' :: t) = tail r' t := by
  obtain ⟨st, fld, flds⟩ := r
  obtain ⟨h1, h2, h3⟩ := hr
  simp only at h1 h2 h3
  subst h1 h2
  refine ⟨⟨.startField, [], flds ++ [fld]⟩, ⟨rfl, rfl, by simp⟩, rfl, ?_⟩
  rw [tail_cons rfl]
  rcases h3 with rfl | rfl | ⟨rfl, rfl⟩ | ⟨rfl, rfl, rfl⟩ <;>
    simp [Rd.step, Rd.start, Rd.save, isNl]

/-- The end of a line: `z` is what is left, `t` the rest of the file after the line. -/
def Closes (z t : Str) : Prop :=
  z = '\r' :: '\n' :: t ∨ z = '\n' :: t ∨ (z = '\r' :: t ∧ t.head? ≠ some '\n') ∨ (z = [] ∧ t = [])

/-- After the end of a line. -/
theorem tail_end {z t : Str} (hz : Closes z t) (r : Rd) (fs : List Str) (h : r.eol.st = .startRecord ∧ r.eol.fields = fs)
    (h1 : (r.step '\n').eol.st = .startRecord ∧ (r.step '\n').eol.fields = fs)
    (h2 : (r.step '\r').eol.st = .startRecord ∧ (r.step '\r').eol.fields = fs)
    (h3 : ((r.step '\r').step '\n').eol.st = .startRecord ∧ ((r.step '\r').step '\n').eol.fields = fs) : tail r z = fs :: rest .reset t := by
  rcases hz with rfl | rfl | ⟨rfl, hn⟩ | ⟨rfl, rfl⟩
  · unfold tail rest
    rw [if_neg (by simp), splitLines_crlf]
    simp [readLines, h3]
  · unfold tail rest
    rw [if_neg (by simp), splitLines_lf]
    simp [readLines, h1]
  · unfold tail rest
    rw [if_neg (by simp), splitLines_cr (fun u hu => by subst hu; exact hn rfl)]
    simp [readLines, h2]
  · unfold tail
    rw [if_pos rfl, if_pos h.1, h.2]
    simp [rest, splitLines, readLines, Rd.reset]

theorem tail_close {r : Rd} {f : Str} {fs : List Str} (hr : Done r f fs) (hs : r.st ≠ .startRecord) {z t : Str} (hz : Closes z t) :
    tail r z = (fs ++ [f]) :: rest .reset t := by
  obtain ⟨st, fld, flds⟩ := r
  obtain ⟨h1, h2, h3⟩ := hr
  simp only at h1 h2 h3 hs
  subst h1 h2
  refine tail_end hz _ _ ?_ ?_ ?_ ?_ <;>
  · rcases h3 with rfl | rfl | ⟨rfl, rfl⟩ | ⟨rfl, rfl, rfl⟩
    · simp [Rd.step, Rd.save, Rd.eol, isNl]
    · simp [Rd.step, Rd.save, Rd.eol, isNl]
    · simp [Rd.step, Rd.start, Rd.save, Rd.eol, isNl]
    · exact absurd rfl hs

theorem tail_fields {r : Rd} {fs : List Str} (hr : Fresh r fs) {s : Str} {row : List Str} (h : FieldsText s row)
    (hst : r.st = .startRecord → s ≠ []) {z t : Str} (hz : Closes z t) : tail r (s ++ z) = (fs ++ row) :: rest .reset t := by
  induction h generalizing r fs with
  | one h =>
    obtain ⟨r', h1, h2, h3⟩ := tail_field hr h z
    rw [h3, tail_close h1 _ hz]
    intro h
    obtain ⟨h4, h5⟩ := h2 h
    exact hst h4 h5
  | more h hs ih =>
    rename_i s f u fs'
    obtain ⟨r', h1, h2, h3⟩ := tail_field hr h (',' :: (u ++ z))
    obtain ⟨r2, h4, h5, h6⟩ := tail_comma h1 (u ++ z)
    rw [show s ++ ',' :: u ++ z = s ++ ',' :: (u ++ z) by simp, h3, h6, ih h4 (by simp [h5])]
    simp

theorem tail_line {s : Str} {row : List Str} (h : LineText s row) {z t : Str} (hz : Closes z t) : tail .reset (s ++ z) = row :: rest .reset t := by
  cases h with
  | empty =>
    rw [List.nil_append]
    exact tail_end hz _ _ (by simp [Rd.reset, Rd.eol]) (by simp [Rd.reset, Rd.step, Rd.eol, isNl]) (by simp [Rd.reset, Rd.step, Rd.eol, isNl])
      (by simp [Rd.reset, Rd.step, Rd.eol, isNl])
  | row h hs => exact tail_fields (r := .reset) (fs := []) ⟨rfl, rfl, by simp [Rd.reset]⟩ h (fun _ => hs) hz

/-- Reading a file gives the rows it says. -/
theorem read_text {s : Str} {rows : List (List Str)} (h : FileText s rows) : read s = rows := by
  show rest .reset s = rows
  have key : ∀ {s z t row}, LineText s row → s ++ z ≠ [] → Closes z t → rest .reset (s ++ z) = row :: rest .reset t := by
    intro s z t row h hne hz
    have := tail_line h hz
    unfold tail at this
    rwa [if_neg hne] at this
  induction h with
  | nil => simp [rest, splitLines, readLines, Rd.reset]
  | crlf h _ ih => rw [key h (by simp) (.inl rfl), ih]
  | lf h _ ih => rw [key h (by simp) (.inr (.inl rfl)), ih]
  | cr h _ hn ih => rw [key h (by simp) (.inr (.inr (.inl ⟨rfl, hn⟩))), ih]
  | last h hne =>
    have := key h (z := []) (t := []) (by simpa using hne) (.inr (.inr (.inr ⟨rfl, rfl⟩)))
    rw [List.append_nil] at this
    rw [this]
    simp [rest, splitLines, readLines, Rd.reset]

end AtomTk.Csv
