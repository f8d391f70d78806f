import Verif.Model.Load
import Verif.Proofs.Graph
import Verif.Proofs.Text
import Verif.Proofs.Decimal

/-! # Tables from CSV files: C111-C114 -/

namespace AtomTk.Load

/-! ## C111 -/

/-- The column of the file that the dictionary names for `k`. -/
def Names (file : Frame) (columns : Dict Str Str) (k : Str) (l : List Cell) : Prop :=
  ∃ c, columns.get? k = some c ∧ file.get? c = some l

theorem column_ok {file : Frame} {columns : Dict Str Str} {k : Str} {l : List Cell} :
    column file columns k = .ok l ↔ Names file columns k l := by
  unfold column Names
  cases hc : columns.get? k with
  | none => simp [bind, Except.bind, Dict.getE_err hc]
  | some c =>
    rw [Dict.getE_ok.2 hc]
    simp only [bind, Except.bind, Dict.getE_ok, Option.some.injEq, exists_eq_left']

theorem column_err {file : Frame} {columns : Dict Str Str} {k : Str} (h : ∀ l, ¬Names file columns k l) :
    column file columns k = .error .KeyError := by
  unfold column
  cases hc : columns.get? k with
  | none => simp [bind, Except.bind, Dict.getE_err hc]
  | some c =>
    rw [Dict.getE_ok.2 hc]
    refine Dict.getE_err ?_
    cases hf : file.get? c with
    | none => rfl
    | some l => exact absurd ⟨c, hc, hf⟩ (h l)

theorem pick_ok {file : Frame} {columns : Dict Str Str} {ks : List Str} (h : ∀ k ∈ ks, ∃ l, Names file columns k l) :
    ∃ df, pick file columns ks = .ok df ∧ df.keys = ks := by
  induction ks with
  | nil => exact ⟨[], rfl, rfl⟩
  | cons k ks ih =>
    obtain ⟨l, hl⟩ := h k (by simp)
    obtain ⟨df, h1, h2⟩ := ih (fun k' hk => h k' (by simp [hk]))
    refine ⟨(k, l) :: df, ?_, ?_⟩
    · unfold pick
      rw [column_ok.2 hl, h1]
      rfl
    · show k :: Dict.keys df = _
      rw [h2]

theorem pick_get {file : Frame} {columns : Dict Str Str} {ks : List Str} {df : Frame} (h : pick file columns ks = .ok df) :
    df.keys = ks ∧ ∀ k ∈ ks, ∃ l, Names file columns k l ∧ df.get? k = some l := by
  induction ks generalizing df with
  | nil =>
    simp only [pick, Except.ok.injEq] at h
    subst h
    exact ⟨rfl, by simp⟩
  | cons k ks ih =>
    unfold pick at h
    cases hc : column file columns k with
    | error e => rw [hc] at h; simp [bind, Except.bind] at h
    | ok l =>
      cases hr : pick file columns ks with
      | error e => rw [hc, hr] at h; simp [bind, Except.bind] at h
      | ok r =>
        rw [hc, hr] at h
        simp only [bind, Except.bind, Except.ok.injEq] at h
        subst h
        obtain ⟨h1, h2⟩ := ih hr
        refine ⟨by show k :: Dict.keys r = _; rw [h1], fun k' hk => ?_⟩
        by_cases he : k = k'
        · subst he
          exact ⟨l, column_ok.1 hc, by simp [Dict.get?]⟩
        · obtain ⟨l', h3, h4⟩ := h2 k' (by simpa [Ne.symm he] using hk)
          exact ⟨l', h3, by simpa [Dict.get?, he] using h4⟩

theorem pick_err {file : Frame} {columns : Dict Str Str} {ks : List Str} {k : Str} (hk : k ∈ ks) (h : ∀ l, ¬Names file columns k l) :
    pick file columns ks = .error .KeyError := by
  induction ks with
  | nil => simp at hk
  | cons k' ks ih =>
    unfold pick
    by_cases h' : ∃ l, Names file columns k' l
    · obtain ⟨l, hl⟩ := h'
      rw [column_ok.2 hl]
      have hks : k ∈ ks := by
        rcases List.mem_cons.1 hk with rfl | hk
        · exact absurd hl (h l)
        · exact hk
      simp only [bind, Except.bind, ih hks]
    · rw [column_err (fun l hl => h' ⟨l, hl⟩)]
      rfl

theorem synonym_get (new old : Str) (columns : Dict Str Str) (k : Str) : (synonym new old columns).get? k =
    if k = new then (columns.get? new).or (columns.get? old) else columns.get? k := by
  unfold synonym
  split
  · rename_i c h1 h2
    rw [Dict.get?_set]
    by_cases h : k = new
    · subst h; simp [h1, h2]
    · rw [if_neg (Ne.symm h), if_neg h]
  · rename_i hno
    split
    · rename_i h
      subst h
      cases h1 : columns.get? k with
      | some c => rfl
      | none =>
        cases h2 : columns.get? old with
        | none => rfl
        | some c => exact absurd h2 (hno c h1)
    · rfl

/-- Which column is used: `freq` may also be called `frequency`, `A` may be called `A_coeff`; the short name wins. -/
def Wanted (columns : Dict Str Str) (k : Str) : Option Str :=
  if k = "freq".toList then (columns.get? "freq".toList).or (columns.get? "frequency".toList)
  else if k = "A".toList then (columns.get? "A".toList).or (columns.get? "A_coeff".toList)
  else columns.get? k

/-- C111: the dictionary passed keeps its entries and gets at most the two short names added. -/
theorem C111_caller (columns : Dict Str Str) (k : Str) : (columnsAfter columns).get? k = Wanted columns k := by
  unfold columnsAfter Wanted
  simp only [synonym_get]
  by_cases h1 : k = "freq".toList
  · subst h1
    rw [if_neg (by decide), if_pos rfl, if_pos rfl]
  · by_cases h2 : k = "A".toList
    · subst h2
      rw [if_pos rfl, if_neg h1, if_pos rfl, if_neg (by decide), if_neg (by decide)]
    · rw [if_neg h2, if_neg h1, if_neg h1, if_neg h2]

theorem wanted_plain {k : Str} (hk : k ∈ wanted) (columns : Dict Str Str) : Wanted columns k = columns.get? k := by
  have h : ∀ k ∈ wanted, k ≠ "freq".toList ∧ k ≠ "A".toList := by decide
  unfold Wanted
  rw [if_neg (h k hk).1, if_neg (h k hk).2]

theorem names_after {file : Frame} {columns : Dict Str Str} {k : Str} (hk : k ∈ wanted) (l : List Cell) :
    Names file (columnsAfter columns) k l ↔ Names file columns k l := by
  unfold Names
  rw [C111_caller, wanted_plain hk]

/-- C111: a loaded table has the six columns that the dictionary names, as they are in the file, and a frequency or rate column
exactly if the dictionary names one. -/
theorem C111_columns (ofText : Str → Py Val) (file : Frame) (columns : Dict Str Str) (t : TTable)
    (h : loadTransitions ofText file (some columns) = .ok t) :
    t.keys.keys = ["conf_l".toList, "term_l".toList, "j_l".toList, "conf_u".toList, "term_u".toList, "j_u".toList] ∧
    (∀ k ∈ t.keys.keys, ∃ c l, columns.get? k = some c ∧ file.get? c = some l ∧ t.keys.get? k = some l) ∧
    (∀ c, Wanted columns "freq".toList = some c → ∃ l f, file.get? c = some l ∧ t.freq = some f ∧ f = l.map .raw) ∧
    (Wanted columns "freq".toList = none → t.freq = none) ∧
    (∀ c, Wanted columns "A".toList = some c → ∃ l a, file.get? c = some l ∧ t.A = some a ∧ a.length = l.length) ∧
    (Wanted columns "A".toList = none → t.A = none) := by
  unfold loadTransitions at h
  simp only at h
  cases hk : pick file (columnsAfter columns) wanted with
  | error e => rw [hk] at h; simp [bind, Except.bind] at h
  | ok ks =>
    cases hf : freqCol file (columnsAfter columns) with
    | error e => rw [hk, hf] at h; simp [bind, Except.bind] at h
    | ok f =>
      cases ha : rateCol ofText file (columnsAfter columns) with
      | error e => rw [hk, hf, ha] at h; simp [bind, Except.bind] at h
      | ok a =>
        rw [hk, hf, ha] at h
        simp only [bind, Except.bind, Except.ok.injEq] at h
        subst h
        obtain ⟨h1, h2⟩ := pick_get hk
        refine ⟨h1, fun k hk => ?_, fun c hc => ?_, fun hc => ?_, fun c hc => ?_, fun hc => ?_⟩
        · have hk' : k ∈ wanted := by rw [← h1]; exact hk
          obtain ⟨l, h3, h4⟩ := h2 k hk'
          obtain ⟨c, h5, h6⟩ := (names_after hk' l).1 h3
          exact ⟨c, l, h5, h6, h4⟩
        · unfold freqCol at hf
          rw [C111_caller, hc] at hf
          cases hl : file.get? c with
          | none => simp only [Dict.getE_err hl, Except.map] at hf; cases hf
          | some l =>
            simp only [Dict.getE_ok.2 hl, Except.map, Except.ok.injEq] at hf
            exact ⟨l, l.map .raw, rfl, hf.symm, rfl⟩
        · unfold freqCol at hf
          rw [C111_caller, hc] at hf
          simpa using hf.symm
        · unfold rateCol at ha
          rw [C111_caller, hc] at ha
          cases hl : file.get? c with
          | none => simp only [Dict.getE_err hl, bind, Except.bind] at ha; cases ha
          | some l =>
            simp only [Dict.getE_ok.2 hl, bind, Except.bind] at ha
            cases hm : mhzs ofText l with
            | error e => rw [hm] at ha; simp at ha
            | ok v =>
              rw [hm] at ha
              simp only [Except.ok.injEq] at ha
              refine ⟨l, v, rfl, ha.symm, ?_⟩
              clear ha hl h1 h2 hk hf
              induction l generalizing v with
              | nil => simp only [mhzs, Except.ok.injEq] at hm; subst hm; rfl
              | cons x l ih =>
                unfold mhzs at hm
                cases hx : mhz ofText x with
                | error e => rw [hx] at hm; simp [bind, Except.bind] at hm
                | ok y =>
                  cases hy : mhzs ofText l with
                  | error e => rw [hx, hy] at hm; simp [bind, Except.bind] at hm
                  | ok ys =>
                    rw [hx, hy] at hm
                    simp only [bind, Except.bind, Except.ok.injEq] at hm
                    subst hm
                    simp [ih ys hy]
        · unfold rateCol at ha
          rw [C111_caller, hc] at ha
          simpa using ha.symm

/-- C111: a missing column is reported. -/
theorem C111_missing (ofText : Str → Py Val) (file : Frame) (columns : Dict Str Str) (k : Str)
    (hk : k ∈ ["conf_l".toList, "term_l".toList, "j_l".toList, "conf_u".toList, "term_u".toList, "j_u".toList])
    (h : ∀ c, columns.get? k = some c → file.get? c = none) : loadTransitions ofText file (some columns) = .error .KeyError := by
  unfold loadTransitions
  have := pick_err (file := file) (columns := columnsAfter columns) (ks := wanted) (k := k) hk (fun l hl => by
    obtain ⟨c, h1, h2⟩ := (names_after hk l).1 hl
    rw [h c h1] at h2
    cases h2)
  simp only [this, bind, Except.bind]

/-- C111: the dictionary is not optional, though the signature says so. -/
theorem C111_none (ofText : Str → Py Val) (file : Frame) : loadTransitions ofText file none = .error .TypeError := rfl

/-- The number in a cell. -/
def number : Cell → Option ℚ
  | .num q => some q
  | _ => none

theorem mhzs_num (ofText : Str → Py Val) (l : List Cell) (h : ∀ c ∈ l, ∀ s, c ≠ .text s) :
    ∃ v, mhzs ofText l = .ok v ∧ v.length = l.length ∧ ∀ (i : Nat) c, l[i]? = some c →
      v[i]? = some (.qty ((number c).map (1000000 * ·))) := by
  induction l with
  | nil => exact ⟨[], rfl, rfl, by simp⟩
  | cons x l ih =>
    obtain ⟨v, h1, h2, h3⟩ := ih (fun c hc => h c (by simp [hc]))
    have hx : mhz ofText x = .ok (.qty ((number x).map (1000000 * ·))) := by
      cases x with
      | text s => exact absurd rfl (h (.text s) (by simp) s)
      | num q => rfl
      | nan => rfl
    refine ⟨_ :: v, by unfold mhzs; rw [hx, h1]; rfl, by rw [List.length_cons, List.length_cons, h2], fun i c hc => ?_⟩
    cases i with
    | zero =>
      simp only [List.getElem?_cons_zero, Option.some.injEq] at hc ⊢
      rw [hc]
    | succ i =>
      simp only [List.getElem?_cons_succ] at hc ⊢
      exact h3 i c hc

/-- C111: if every column named is there and the rates are numbers, the table is loaded. -/
theorem C111_loads (ofText : Str → Py Val) (file : Frame) (columns : Dict Str Str)
    (hk : ∀ k ∈ ["conf_l".toList, "term_l".toList, "j_l".toList, "conf_u".toList, "term_u".toList, "j_u".toList],
      ∃ c l, columns.get? k = some c ∧ file.get? c = some l)
    (hf : ∀ c, Wanted columns "freq".toList = some c → ∃ l, file.get? c = some l)
    (ha : ∀ c, Wanted columns "A".toList = some c → ∃ l, file.get? c = some l ∧ ∀ x ∈ l, ∀ s, x ≠ .text s) :
    ∃ t, loadTransitions ofText file (some columns) = .ok t := by
  obtain ⟨ks, h1, _⟩ := pick_ok (file := file) (columns := columnsAfter columns) (ks := wanted) (fun k hk' => by
    obtain ⟨c, l, h1, h2⟩ := hk k hk'
    exact ⟨l, (names_after hk' l).2 ⟨c, h1, h2⟩⟩)
  have h2 : ∃ f, freqCol file (columnsAfter columns) = .ok f := by
    unfold freqCol
    rw [C111_caller]
    cases hw : Wanted columns "freq".toList with
    | none => exact ⟨_, rfl⟩
    | some c =>
      obtain ⟨l, hl⟩ := hf c hw
      exact ⟨_, by simp only [Dict.getE_ok.2 hl]; rfl⟩
  have h3 : ∃ a, rateCol ofText file (columnsAfter columns) = .ok a := by
    unfold rateCol
    rw [C111_caller]
    cases hw : Wanted columns "A".toList with
    | none => exact ⟨_, rfl⟩
    | some c =>
      obtain ⟨l, hl, hn⟩ := ha c hw
      obtain ⟨v, hv, _⟩ := mhzs_num ofText l hn
      exact ⟨_, by simp only [Dict.getE_ok.2 hl, bind, Except.bind, hv]; rfl⟩
  obtain ⟨f, h2⟩ := h2
  obtain ⟨a, h3⟩ := h3
  unfold loadTransitions
  simp only [h1, h2, h3, bind, Except.bind]
  exact ⟨_, rfl⟩

/-- A file with one transition. -/
def demoFile : Frame := [("c".toList, [.text "4s".toList]), ("t".toList, [.text "2S".toList]), ("j".toList, [.num (1/2)]),
  ("C".toList, [.text "4p".toList]), ("T".toList, [.text "2P*".toList]), ("J".toList, [.num (1/2)]),
  ("f".toList, [.num 755]), ("G".toList, [.num 22])]

/-- Its columns. -/
def demoColumns : Dict Str Str := [("conf_l".toList, "c".toList), ("term_l".toList, "t".toList), ("j_l".toList, "j".toList),
  ("conf_u".toList, "C".toList), ("term_u".toList, "T".toList), ("j_u".toList, "J".toList), ("frequency".toList, "f".toList),
  ("A".toList, "G".toList)]

example : loadTransitions (fun _ => .error .ValueError) demoFile (some demoColumns) =
    .ok ⟨[("conf_l".toList, [.text "4s".toList]), ("term_l".toList, [.text "2S".toList]), ("j_l".toList, [.num (1/2)]),
      ("conf_u".toList, [.text "4p".toList]), ("term_u".toList, [.text "2P*".toList]), ("j_u".toList, [.num (1/2)])],
      some [.raw (.num 755)], some [.qty (some 22000000)]⟩ ∧
    (columnsAfter demoColumns).get? "freq".toList = some "f".toList := by decide +kernel

/-! ## C112 -/

/-- The full claim: frequencies and rates come out as quantities. -/
def C112_full : Prop := ∀ ofText file columns t, loadTransitions ofText file (some columns) = .ok t →
  (∀ f, t.freq = some f → ∀ v ∈ f, ∃ x, v = .qty x) ∧ ∀ a, (∀ s v, ofText s = .ok v → ∃ x, v = .qty x) → t.A = some a → ∀ v ∈ a, ∃ x, v = .qty x

/-- C112 for the rates: numbers in the file are MHz. -/
theorem C112_rates_partial (ofText : Str → Py Val) (file : Frame) (columns : Dict Str Str) (t : TTable) (c : Str) (l : List Cell)
    (h : loadTransitions ofText file (some columns) = .ok t) (hw : Wanted columns "A".toList = some c) (hl : file.get? c = some l)
    (hn : ∀ x ∈ l, ∀ s, x ≠ .text s) : ∃ a, t.A = some a ∧ a.length = l.length ∧
      (∀ (i : Nat) q, l[i]? = some (.num q) → a[i]? = some (.qty (some (1000000 * q)))) ∧
      (∀ i : Nat, l[i]? = some .nan → a[i]? = some (.qty none)) := by
  obtain ⟨v, h1, h2, h3⟩ := mhzs_num ofText l hn
  unfold loadTransitions at h
  simp only at h
  have ha : rateCol ofText file (columnsAfter columns) = .ok (some v) := by
    unfold rateCol
    rw [C111_caller, hw]
    simp only [Dict.getE_ok.2 hl, h1, bind, Except.bind]
  cases hk : pick file (columnsAfter columns) wanted with
  | error e => rw [hk] at h; simp [bind, Except.bind] at h
  | ok ks =>
    cases hf : freqCol file (columnsAfter columns) with
    | error e => rw [hk, hf] at h; simp [bind, Except.bind] at h
    | ok f =>
      rw [hk, hf, ha] at h
      simp only [bind, Except.bind, Except.ok.injEq] at h
      subst h
      exact ⟨v, rfl, h2, fun i q hi => h3 i _ hi, fun i hi => h3 i _ hi⟩

/-- C112: no frequency does. -/
theorem C112_never (ofText : Str → Py Val) (file : Frame) (columns : Dict Str Str) (t : TTable)
    (h : loadTransitions ofText file (some columns) = .ok t) (f : List Val) (hf : t.freq = some f) : ∀ v ∈ f, ∃ c, v = .raw c := by
  obtain ⟨_, _, h1, h2, _⟩ := C111_columns ofText file columns t h
  cases hw : Wanted columns "freq".toList with
  | none => rw [h2 hw] at hf; cases hf
  | some c =>
    obtain ⟨l, f', _, h3, h4⟩ := h1 c hw
    rw [hf] at h3
    cases h3
    subst h4
    intro v hv
    obtain ⟨x, _, rfl⟩ := List.mem_map.1 hv
    exact ⟨x, rfl⟩

/-- C112 is false: the frequency of the file stays a number without unit. -/
theorem C112_fails : ¬C112_full := by
  intro h
  obtain ⟨x, hx⟩ := (h (fun _ => .error .ValueError) demoFile demoColumns
    ⟨[("conf_l".toList, [.text "4s".toList]), ("term_l".toList, [.text "2S".toList]), ("j_l".toList, [.num (1/2)]),
      ("conf_u".toList, [.text "4p".toList]), ("term_u".toList, [.text "2P*".toList]), ("j_u".toList, [.num (1/2)])],
      some [.raw (.num 755)], some [.qty (some 22000000)]⟩ (by decide +kernel)).1 _ rfl (.raw (.num 755)) (by simp)
  cases hx

/-! ## C113 -/

/-- The full claim: a file with the documented columns, in lower case, is read without telling the columns. -/
def C113_full : Prop := ∀ file : Frame,
  (∀ k ∈ ["configuration".toList, "term".toList, "j".toList, "level (cm-1)".toList, "lande".toList, "leading percentages".toList],
    ∃ l, file.get? k = some l ∧ ∀ c ∈ l, ∃ q, c = .num q) → ∃ t, loadLevels file none = .ok t

/-- C113: without telling the columns no file can be read. -/
theorem C113_default (file : Frame) : loadLevels file none = .error .KeyError := by
  unfold loadLevels
  simp only [Option.getD_none]
  cases h : pick file defaultColumns defaultColumns.keys with
  | error e =>
    by_cases hk : ∀ k ∈ defaultColumns.keys, ∃ l, Names file defaultColumns k l
    · obtain ⟨df, h1, _⟩ := pick_ok hk
      rw [h] at h1
      cases h1
    · push Not at hk
      obtain ⟨k, hk, hn⟩ := hk
      rw [pick_err hk hn] at h
      cases h
      rfl
  | ok df =>
    obtain ⟨h1, _⟩ := pick_get h
    have : df.get? levelKey = none := by
      rw [Dict.get?_none, h1]
      decide
    simp only [bind, Except.bind, Dict.getE_err this]

theorem C113_fails : ¬C113_full := by
  intro h
  obtain ⟨t, ht⟩ := h (["configuration", "term", "j", "level (cm-1)", "lande", "leading percentages"].map fun s => (s.toList, [Cell.num 1]))
    (by
      intro k hk
      refine ⟨[.num 1], ?_, by simp⟩
      revert k
      decide +kernel)
  rw [C113_default] at ht
  cases ht

/-- C113 with a dictionary, one of whose keys is `Level (cm-1)`, with that capital: the columns are those named, the levels in Hz
are the speed of light times those in cm⁻¹, and the number of rows is the file's. -/
theorem C113_explicit_partial (file : Frame) (columns : Dict Str Str)
    (hk : ∀ k c, columns.get? k = some c → ∃ l, file.get? c = some l) (c : Str) (l : List Cell)
    (hc : columns.get? "Level (cm-1)".toList = some c) (hl : file.get? c = some l) (hq : ∀ x ∈ l, ∀ s, x ≠ .text s) :
    ∃ t, loadLevels file (some columns) = .ok t ∧ t.cols.keys = columns.keys ∧
      (∀ k c, columns.get? k = some c → t.cols.get? k = file.get? c) ∧
      t.cm = l.map number ∧
      t.hz = t.cm.map (Option.map (29979245800 * ·)) := by
  have hget : ∀ k ∈ columns.keys, ∃ l, Names file columns k l := by
    intro k hk'
    cases h : columns.get? k with
    | none => exact absurd hk' ((Dict.get?_none _ _).1 h)
    | some c =>
      obtain ⟨l, hl⟩ := hk k c h
      exact ⟨l, c, h, hl⟩
  obtain ⟨df, h1, h2⟩ := pick_ok hget
  obtain ⟨_, h3⟩ := pick_get h1
  have hdf : ∀ k c, columns.get? k = some c → df.get? k = file.get? c := by
    intro k c h
    obtain ⟨l, ⟨c', h4, h5⟩, h6⟩ := h3 k (by
      by_contra hh
      rw [(Dict.get?_none _ _).2 hh] at h
      cases h)
    rw [h] at h4
    cases h4
    rw [h6, h5]
  have hfl : floats l = .ok (l.map number) := by
    clear hl
    induction l with
    | nil => rfl
    | cons x l ih =>
      unfold floats
      rw [ih (fun x hx => hq x (by simp [hx]))]
      cases x with
      | text s => exact absurd rfl (hq (.text s) (by simp) s)
      | num q => rfl
      | nan => rfl
  refine ⟨⟨df, l.map number, (l.map number).map (Option.map (29979245800 * ·))⟩, ?_, h2, hdf, rfl, rfl⟩
  unfold loadLevels
  have hd : Dict.getE df levelKey = .ok l := Dict.getE_ok.2 ((hdf "Level (cm-1)".toList c hc).trans hl)
  simp only [Option.getD_some, h1, bind, Except.bind, hd]
  unfold wavenumbers
  rw [hfl]
  rfl

example : loadLevels [("E".toList, [.num 2, .nan])] (some [("Level (cm-1)".toList, "E".toList)]) =
    .ok ⟨[("Level (cm-1)".toList, [.num 2, .nan])], [some 2, none], [some 59958491600, none]⟩ := by decide +kernel

/-! ## C114 -/

/-- What a cell says: a number, or the text of a number with or without blanks around it. -/
def Says : Cell → ℚ → Prop
  | .num q, x => q = x
  | .text s, x => ∃ a t b, (∀ c ∈ a, c = ' ') ∧ (∀ c ∈ b, c = ' ') ∧ s = a ++ t ++ b ∧ Decimal t x
  | .nan, _ => False

/-- The full claim: every level that can be read as a number keeps its value. -/
def C114_full : Prop := ∀ (l : List Cell) (file : Frame) (columns : Dict Str Str) (t : LTable),
  loadLevels file (some columns) = .ok t → t.cols.get? "Level (cm-1)".toList = some l →
  ∀ (i : Nat) c q, l[i]? = some c → Says c q → t.cm[i]? = some (some q)

theorem levels_wave {file : Frame} {columns : Dict Str Str} {t : LTable} {l : List Cell}
    (h : loadLevels file (some columns) = .ok t) (hl : t.cols.get? "Level (cm-1)".toList = some l) : wavenumbers l = .ok t.cm := by
  unfold loadLevels at h
  simp only [Option.getD_some] at h
  cases hp : pick file columns columns.keys with
  | error e => rw [hp] at h; simp [bind, Except.bind] at h
  | ok df =>
    rw [hp] at h
    simp only [bind, Except.bind] at h
    cases hg : df.getE levelKey with
    | error e => rw [hg] at h; simp at h
    | ok l' =>
      rw [hg] at h
      simp only at h
      cases hv : wavenumbers l' with
      | error e => rw [hv] at h; simp at h
      | ok v =>
        rw [hv] at h
        simp only [Except.ok.injEq] at h
        subst h
        have := Dict.getE_ok.1 hg
        rw [show levelKey = "Level (cm-1)".toList from rfl, hl] at this
        cases this
        exact hv

theorem floats_get {l : List Cell} {v : List (Option ℚ)} (h : floats l = .ok v) (i : Nat) (c : Cell) (hi : l[i]? = some c) :
    ∃ x, cellFloat c = .ok x ∧ v[i]? = some x := by
  induction l generalizing v i with
  | nil => simp at hi
  | cons y l ih =>
    unfold floats at h
    cases hy : cellFloat y with
    | error e => rw [hy] at h; simp [bind, Except.bind] at h
    | ok z =>
      cases hr : floats l with
      | error e => rw [hy, hr] at h; simp [bind, Except.bind] at h
      | ok r =>
        rw [hy, hr] at h
        simp only [bind, Except.bind, Except.ok.injEq] at h
        subst h
        cases i with
        | zero =>
          simp only [List.getElem?_cons_zero, Option.some.injEq] at hi ⊢
          subst hi
          exact ⟨z, hy, rfl⟩
        | succ i =>
          simp only [List.getElem?_cons_succ] at hi ⊢
          exact ih hr i hi

theorem cellFloat_says {c : Cell} {q : ℚ} (h : Says c q) : cellFloat c = .ok (some q) := by
  cases c with
  | text s =>
    obtain ⟨a, t, b, ha, hb, rfl, ht⟩ := h
    unfold cellFloat
    simp only [pyFloat_blanks ha hb ht, Except.map]
  | num x => unfold Says at h; subst h; rfl
  | nan => exact absurd h (by simp [Says])

theorem floats_says {l : List Cell} (h : ∀ c ∈ l, c = .nan ∨ ∃ q, Says c q) : ∃ v, floats l = .ok v := by
  induction l with
  | nil => exact ⟨[], rfl⟩
  | cons x l ih =>
    obtain ⟨v, hv⟩ := ih (fun c hc => h c (by simp [hc]))
    have : ∃ y, cellFloat x = .ok y := by
      rcases h x (by simp) with rfl | ⟨q, hq⟩
      · exact ⟨_, rfl⟩
      · exact ⟨_, cellFloat_says hq⟩
    obtain ⟨y, hy⟩ := this
    exact ⟨y :: v, by unfold floats; rw [hy, hv]; rfl⟩

/-- C114 when every cell can be read as a number or is missing. -/
theorem C114_clean_partial (l : List Cell) (file : Frame) (columns : Dict Str Str) (t : LTable)
    (h : loadLevels file (some columns) = .ok t) (hl : t.cols.get? "Level (cm-1)".toList = some l)
    (hc : ∀ c ∈ l, c = .nan ∨ ∃ q, Says c q) (i : Nat) (c : Cell) (q : ℚ) (hi : l[i]? = some c) (hq : Says c q) :
    t.cm[i]? = some (some q) := by
  have hw := levels_wave h hl
  obtain ⟨v, hv⟩ := floats_says hc
  unfold wavenumbers at hw
  rw [hv] at hw
  simp only [Except.ok.injEq] at hw
  subst hw
  obtain ⟨x, h1, h2⟩ := floats_get hv i c hi
  rw [cellFloat_says hq] at h1
  cases h1
  exact h2

/-- A text of digits and points only. -/
def Digits (s : Str) : Prop := ∀ c ∈ s, isDig c = true ∨ c = '.'

/-- A text without digits or points. -/
def NoDigits (s : Str) : Prop := ∀ c ∈ s, isDig c = false ∧ c ≠ '.'

theorem onlyDigits_pad {pre s post : Str} (h1 : NoDigits pre) (hs : Digits s) (h2 : NoDigits post) :
    onlyDigits (.text (pre ++ s ++ post)) = .text s := by
  show Cell.text ((pre ++ s ++ post).filter fun c => isDig c || c == '.') = _
  have e : ∀ u : Str, NoDigits u → u.filter (fun c => isDig c || c == '.') = [] := by
    intro u hu
    rw [List.filter_eq_nil_iff]
    intro c hc
    simp [(hu c hc).1, (hu c hc).2]
  have e' : s.filter (fun c => isDig c || c == '.') = s := by
    rw [List.filter_eq_self]
    intro c hc
    rcases hs c hc with h | h <;> simp [h]
  rw [List.filter_append, List.filter_append, e pre h1, e post h2, e', List.nil_append, List.append_nil]

/-- C114 whatever the other cells are: an unsigned decimal number keeps its value; and so does one with other text around it
(uncertainty marks, brackets) that makes it unreadable. -/
theorem C114_decimal_partial (l : List Cell) (file : Frame) (columns : Dict Str Str) (t : LTable)
    (h : loadLevels file (some columns) = .ok t) (hl : t.cols.get? "Level (cm-1)".toList = some l)
    (i : Nat) (pre s post : Str) (q : ℚ) (hi : l[i]? = some (.text (pre ++ s ++ post))) (h1 : NoDigits pre) (hq : UDecimal s q)
    (h2 : NoDigits post) (hu : (pre = [] ∧ post = []) ∨ pyFloat (pre ++ s ++ post) = .error .ValueError) :
    t.cm[i]? = some (some q) := by
  have hw := levels_wave h hl
  have hs : Digits s := hq.chars.1
  have hsay : Says (.text s) q := ⟨[], s, [], by simp, by simp, by simp, .plain hq⟩
  unfold wavenumbers at hw
  have back : floats (l.map onlyDigits) = .ok t.cm → t.cm[i]? = some (some q) := by
    intro hb
    obtain ⟨x, g1, g2⟩ := floats_get hb i (.text s) (by rw [List.getElem?_map, hi, Option.map_some, onlyDigits_pad h1 hs h2])
    rw [cellFloat_says hsay] at g1
    cases g1
    exact g2
  cases hf : floats l with
  | ok v =>
    rw [hf] at hw
    simp only [Except.ok.injEq] at hw
    subst hw
    obtain ⟨x, g1, g2⟩ := floats_get hf i _ hi
    rcases hu with ⟨rfl, rfl⟩ | hu
    · simp only [List.nil_append, List.append_nil] at g1
      rw [cellFloat_says hsay] at g1
      cases g1
      exact g2
    · unfold cellFloat at g1
      simp only [hu, Except.map] at g1
      cases g1
  | error e =>
    rw [hf] at hw
    cases e <;> first | exact back hw | (simp at hw)

/-- C114 is false: one cell that cannot be read makes a negative level positive. -/
theorem C114_fails : ¬C114_full := by
  intro h
  have := h [.text "-5".toList, .text "7?".toList] [("E".toList, [.text "-5".toList, .text "7?".toList])]
    [("Level (cm-1)".toList, "E".toList)]
    ⟨[("Level (cm-1)".toList, [.text "-5".toList, .text "7?".toList])], [some 5, some 7], [some 149896229000, some 209854720600]⟩
    (by decide +kernel) (by decide +kernel) 0 (.text "-5".toList) (-5) rfl
    ⟨[], "-5".toList, [], by simp, by simp, rfl, by
      have := Decimal.minus (UDecimal.whole ['5'] (by unfold AllDigits; decide) (by decide))
      rwa [show (placeVal ['5'] : ℚ) = 5 by decide +kernel] at this⟩
  revert this
  decide +kernel

example : (loadLevels [("E".toList, [.text "12.5".toList, .text "[7]?".toList])] (some [("Level (cm-1)".toList, "E".toList)])).map LTable.cm =
    .ok [some (25/2), some 7] ∧ NoDigits "]?".toList ∧ Decimal "12.5".toList (25/2) := by
  refine ⟨by decide +kernel, by unfold NoDigits; decide +kernel, Decimal.of "12".toList "5".toList (by decide +kernel)⟩

end AtomTk.Load
