import Verif.Model.IO

/-! # Reading back what was written -/

namespace AtomTk.Csv

/-- What the reader gives for the rest of a file. -/
def rest (r : Rd) (s : Str) : List (List Str) := readLines r (splitLines s)

theorem splitLines_ne {s : Str} (h : s ≠ []) : splitLines s ≠ [] := by
  cases s with
  | nil => exact absurd rfl h
  | cons c cs =>
    unfold splitLines
    split <;> first | contradiction | simp
    split <;> simp

theorem splitLines_cons {c : Char} (h : isNl c = false) (cs : Str) :
    splitLines (c :: cs) = match splitLines cs with | [] => [[c]] | l :: ls => (c :: l) :: ls := by
  simp only [isNl, Bool.or_eq_false_iff, beq_eq_false_iff_ne] at h
  conv_lhs => unfold splitLines
  split
  · contradiction
  · exact absurd (by simp_all) h.1
  · exact absurd (by simp_all) h.2
  · exact absurd (by simp_all) h.2
  · rename_i heq
    cases heq; rfl

/-- The lines of a file: text without line-end characters, then at most one line end. -/
theorem splitLines_shape (s : Str) : ∀ l ∈ splitLines s, ∃ b e, l = b ++ e ∧ (∀ c ∈ b, isNl c = false) ∧
    (e = [] ∨ e = ['\n'] ∨ e = ['\r'] ∨ e = ['\r', '\n']) := by
  fun_induction splitLines s with
  | case1 => simp
  | case2 cs ih =>
    intro l hl
    rcases List.mem_cons.1 hl with rfl | hl
    · exact ⟨[], _, rfl, by simp, by simp⟩
    · exact ih l hl
  | case3 cs ih =>
    intro l hl
    rcases List.mem_cons.1 hl with rfl | hl
    · exact ⟨[], _, rfl, by simp, by simp⟩
    · exact ih l hl
  | case4 cs hne ih =>
    intro l hl
    rcases List.mem_cons.1 hl with rfl | hl
    · exact ⟨[], _, rfl, by simp, by simp⟩
    · exact ih l hl
  | case5 c cs h1 h2 h3 he ih =>
    intro l hl
    have hc : isNl c = false := by
      simp only [isNl, Bool.or_eq_false_iff, beq_eq_false_iff_ne]; exact ⟨h1, h3⟩
    rcases List.mem_cons.1 hl with rfl | hl
    · exact ⟨[c], [], by simp, by simp [hc], by simp⟩
    · simp at hl
  | case6 c cs h1 h2 h3 l0 ls he ih =>
    intro l hl
    have hc : isNl c = false := by
      simp only [isNl, Bool.or_eq_false_iff, beq_eq_false_iff_ne]; exact ⟨h1, h3⟩
    rcases List.mem_cons.1 hl with rfl | hl
    · obtain ⟨b, e, rfl, hb, hx⟩ := ih l0 (by rw [he]; simp)
      exact ⟨c :: b, e, by simp, by simpa [hc] using hb, hx⟩
    · exact ih l (by rw [he]; simp [hl])

theorem splitLines_crlf (cs : Str) : splitLines ('\r' :: '\n' :: cs) = ['\r', '\n'] :: splitLines cs := by
  rw [splitLines]

theorem splitLines_lf (cs : Str) : splitLines ('\n' :: cs) = ['\n'] :: splitLines cs := by
  rw [splitLines]

theorem splitLines_cr {cs : Str} (h : ∀ t, cs ≠ '\n' :: t) : splitLines ('\r' :: cs) = ['\r'] :: splitLines cs := by
  rw [splitLines]
  intro t ht; exact h t ht

/-- An ordinary character is consumed. -/
theorem rest_cons {c : Char} (h : isNl c = false) {cs : Str} (hc : cs ≠ []) (r : Rd) :
    rest r (c :: cs) = rest (r.step c) cs := by
  unfold rest
  rw [splitLines_cons h]
  cases hs : splitLines cs with
  | nil => exact absurd hs (splitLines_ne hc)
  | cons l ls => rfl

/-- A line end closes a record that is not inside quotes. -/
theorem rest_crlf (cs : Str) (r : Rd) (h : ((r.step '\r').step '\n').eol.st = .startRecord) :
    rest r ('\r' :: '\n' :: cs) = ((r.step '\r').step '\n').eol.fields :: rest .reset cs := by
  unfold rest
  rw [splitLines_crlf]
  simp [readLines, h]

/-- Inside quotes every character but the quote is taken, line ends included. -/
theorem rest_quoted {c : Char} (h : c ≠ '"') {cs : Str} (hc : cs ≠ []) (f : Str) (fs : List Str) :
    rest ⟨.inQuoted, f, fs⟩ (c :: cs) = rest ⟨.inQuoted, f ++ [c], fs⟩ cs := by
  by_cases hn : isNl c = false
  · rw [rest_cons hn hc]; simp [Rd.step, Rd.add, h]
  · simp only [isNl, Bool.not_eq_false, Bool.or_eq_true, beq_iff_eq] at hn
    rcases hn with rfl | rfl
    · unfold rest; rw [splitLines_lf]; simp [readLines, Rd.step, Rd.add, Rd.eol]
    · by_cases hx : ∃ t, cs = '\n' :: t
      · obtain ⟨t, rfl⟩ := hx
        unfold rest; rw [splitLines_crlf, splitLines_lf]; simp [readLines, Rd.step, Rd.add, Rd.eol]
      · unfold rest; rw [splitLines_cr (fun t ht => hx ⟨t, ht⟩)]; simp [readLines, Rd.step, Rd.add, Rd.eol]

/-- A quoted text is read back up to its closing quote. -/
theorem rest_escape (f : Str) {t : Str} (ht : t ≠ []) (g : Str) (fs : List Str) :
    rest ⟨.inQuoted, g, fs⟩ (escape f ++ '"' :: t) = rest ⟨.quoteInQuoted, g ++ f, fs⟩ t := by
  induction f generalizing g with
  | nil =>
    rw [escape, List.nil_append, rest_cons rfl ht]
    simp [Rd.step]
  | cons c cs ih =>
    by_cases hc : c = '"'
    · subst hc
      simp only [escape, if_true, List.cons_append]
      rw [rest_cons rfl (by simp), rest_cons rfl (by simp)]
      simp only [Rd.step, Rd.add, if_true]
      rw [ih]; simp
    · simp only [escape, if_neg hc, List.cons_append]
      rw [rest_quoted hc (by simp), ih]; simp

/-- A text without special characters is read as it stands. -/
theorem rest_plain (f : Str) (hf : needsQuote f = false) {t : Str} (ht : t ≠ []) (g : Str) (fs : List Str) :
    rest ⟨.inField, g, fs⟩ (f ++ t) = rest ⟨.inField, g ++ f, fs⟩ t := by
  induction f generalizing g with
  | nil => simp
  | cons c cs ih =>
    simp only [needsQuote, List.any_cons, Bool.or_eq_false_iff, beq_eq_false_iff_ne] at hf
    obtain ⟨⟨⟨⟨h1, h2⟩, h3⟩, h4⟩, h5⟩ := hf
    have hn : isNl c = false := by simp [isNl, h3, h4]
    rw [List.cons_append, rest_cons hn (by simp [ht])]
    simp only [Rd.step, hn, Rd.add, if_neg h1, Bool.false_eq_true, if_false]
    rw [ih (by simpa [needsQuote] using h5)]; simp

/-- The reader just before a field. -/
def Fresh (r : Rd) (fs : List Str) : Prop := r.field = [] ∧ r.fields = fs ∧ (r.st = .startField ∨ (r.st = .startRecord ∧ fs = []))

/-- The reader just after a field. -/
def Done (r : Rd) (f : Str) (fs : List Str) : Prop :=
  r.field = f ∧ r.fields = fs ∧ (r.st = .inField ∨ r.st = .quoteInQuoted ∨ (r.st = .startField ∧ f = []) ∨
    (r.st = .startRecord ∧ f = [] ∧ fs = []))

theorem rest_field {r : Rd} {fs : List Str} (hr : Fresh r fs) (f : Str) {t : Str} (ht : t ≠ []) :
    ∃ r', Done r' f fs ∧ (r'.st = .startRecord → r.st = .startRecord ∧ f = []) ∧ rest r (writeField f ++ t) = rest r' t := by
  obtain ⟨st, fld, flds⟩ := r
  obtain ⟨h1, h2, h3⟩ := hr
  simp only at h1 h2 h3
  subst h1 h2
  have hstart : ∀ c, isNl c = false → (⟨st, [], flds⟩ : Rd).step c = (⟨st, [], flds⟩ : Rd).start c := by
    intro c hc
    rcases h3 with rfl | ⟨rfl, _⟩ <;> simp [Rd.step, hc]
  by_cases hq : needsQuote f = true
  · refine ⟨⟨.quoteInQuoted, f, flds⟩, ⟨rfl, rfl, by simp⟩, by simp, ?_⟩
    simp only [writeField, hq, if_true, List.cons_append, List.append_assoc, List.nil_append]
    rw [rest_cons rfl (by simp), hstart _ rfl]
    simp only [Rd.start, isNl, show ('"' == '\n' || '"' == '\r') = false from rfl, Bool.false_eq_true, if_false, if_true]
    rw [rest_escape f ht]; simp
  · have hq : needsQuote f = false := by simpa using hq
    simp only [writeField, hq, Bool.false_eq_true, if_false]
    cases f with
    | nil =>
      refine ⟨⟨st, [], flds⟩, ⟨rfl, rfl, ?_⟩, fun h => ⟨h, rfl⟩, rfl⟩
      rcases h3 with rfl | ⟨rfl, rfl⟩ <;> simp
    | cons c cs =>
      refine ⟨⟨.inField, c :: cs, flds⟩, ⟨rfl, rfl, by simp⟩, by simp, ?_⟩
      have hq' := hq
      simp only [needsQuote, List.any_cons, Bool.or_eq_false_iff, beq_eq_false_iff_ne] at hq
      obtain ⟨⟨⟨⟨h1, h2⟩, h4⟩, h5⟩, h6⟩ := hq
      have hn : isNl c = false := by simp [isNl, h4, h5]
      rw [List.cons_append, rest_cons hn (by simp [ht]), hstart c hn]
      simp only [Rd.start, hn, Bool.false_eq_true, if_false, if_neg h2, if_neg h1, Rd.add]
      rw [rest_plain cs (by simpa [needsQuote] using h6) ht]; simp

theorem rest_comma {r : Rd} {f : Str} {fs : List Str} (hr : Done r f fs) {t : Str} (ht : t ≠ []) :
    ∃ r', Fresh r' (fs ++ [f]) ∧ r'.st = .startField ∧ rest r (',' :: t) = rest r' t := by
  obtain ⟨st, fld, flds⟩ := r
  obtain ⟨h1, h2, h3⟩ := hr
  simp only at h1 h2 h3
  subst h1 h2
  refine ⟨⟨.startField, [], flds ++ [fld]⟩, ⟨rfl, rfl, by simp⟩, rfl, ?_⟩
  rw [rest_cons rfl ht]
  rcases h3 with rfl | rfl | ⟨rfl, rfl⟩ | ⟨rfl, rfl, rfl⟩ <;>
    simp [Rd.step, Rd.start, Rd.save, isNl]

theorem rest_close {r : Rd} {f : Str} {fs : List Str} (hr : Done r f fs) (hs : r.st ≠ .startRecord) (t : Str) :
    rest r ('\r' :: '\n' :: t) = (fs ++ [f]) :: rest .reset t := by
  obtain ⟨st, fld, flds⟩ := r
  obtain ⟨h1, h2, h3⟩ := hr
  simp only at h1 h2 h3 hs
  subst h1 h2
  rcases h3 with rfl | rfl | ⟨rfl, rfl⟩ | ⟨rfl, rfl, rfl⟩
  · rw [rest_crlf] <;> simp [Rd.step, Rd.save, Rd.eol, isNl]
  · rw [rest_crlf] <;> simp [Rd.step, Rd.save, Rd.eol, isNl]
  · rw [rest_crlf] <;> simp [Rd.step, Rd.start, Rd.save, Rd.eol, isNl]
  · exact absurd rfl hs

theorem rest_fields {r : Rd} {fs : List Str} (hr : Fresh r fs) (row : List Str) (hrow : row ≠ [])
    (hst : r.st = .startRecord → row ≠ [[]]) (t : Str) :
    rest r (joinFields row ++ '\r' :: '\n' :: t) = (fs ++ row) :: rest .reset t := by
  induction row generalizing r fs with
  | nil => exact absurd rfl hrow
  | cons f l ih =>
    cases l with
    | nil =>
      obtain ⟨r', h1, h2, h3⟩ := rest_field hr f (t := '\r' :: '\n' :: t) (by simp)
      rw [joinFields, h3, rest_close h1]
      intro h
      obtain ⟨h4, h5⟩ := h2 h
      exact hst h4 (by rw [h5])
    | cons g l =>
      have e : joinFields (f :: g :: l) ++ '\r' :: '\n' :: t =
          writeField f ++ ',' :: (joinFields (g :: l) ++ '\r' :: '\n' :: t) := by
        simp [joinFields]
      obtain ⟨r', h1, h2, h3⟩ := rest_field hr f (t := ',' :: (joinFields (g :: l) ++ '\r' :: '\n' :: t)) (by simp)
      obtain ⟨r2, h4, h5, h6⟩ := rest_comma h1 (t := joinFields (g :: l) ++ '\r' :: '\n' :: t) (by simp)
      rw [e, h3, h6, ih h4 (by simp) (by simp [h5])]
      simp

theorem rest_row (row : List Str) (t : Str) : rest .reset (writeRow row ++ t) = row :: rest .reset t := by
  unfold writeRow
  by_cases h : row = [[]]
  · subst h
    simp only [if_true, List.cons_append, List.nil_append]
    rw [rest_cons rfl (by simp), rest_cons rfl (by simp), rest_crlf] <;>
      simp [Rd.reset, Rd.step, Rd.start, Rd.save, Rd.eol, isNl]
  · rw [if_neg h]
    cases row with
    | nil =>
      simp only [joinFields, List.nil_append, List.cons_append]
      rw [rest_crlf] <;> simp [Rd.reset, Rd.step, Rd.eol, isNl]
    | cons f l =>
      have := rest_fields (r := .reset) (fs := []) ⟨rfl, rfl, by simp [Rd.reset]⟩ (f :: l) (by simp) (fun _ => h) t
      simpa using this

/-- Reading a written file gives the rows, whatever the fields contain. -/
theorem read_write (rows : List (List Str)) : read (write rows) = rows := by
  show rest .reset (write rows) = rows
  induction rows with
  | nil => simp [write, rest, splitLines, readLines, Rd.reset]
  | cons r l ih =>
    have e : write (r :: l) = writeRow r ++ write l := by simp [write]
    rw [e, rest_row, ih]

end AtomTk.Csv
