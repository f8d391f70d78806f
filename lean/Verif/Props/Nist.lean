import Verif.Proofs.Nist
import Verif.Spec.Basic
import Mathlib.Data.List.TakeWhile

/-! # Cleaning the NIST table: C85 – C89 -/

namespace AtomTk.Nist
open AtomTk Regex Util

/-! ## Loops over rows -/

theorem mapM_forall₂ {α β : Type} {f : α → Py β} (l : List α) (l' : List β) :
    l.mapM f = .ok l' ↔ List.Forall₂ (fun a b => f a = .ok b) l l' := by
  induction l generalizing l' with
  | nil =>
    constructor
    · intro h
      cases h
      exact .nil
    · intro h
      cases h
      rfl
  | cons a l ih =>
    rw [List.mapM_cons]
    constructor
    · intro h
      cases ha : f a with
      | error e => rw [ha] at h; cases h
      | ok b =>
        rw [ha] at h
        cases hl : l.mapM f with
        | error e => rw [hl] at h; cases h
        | ok bs =>
          rw [hl] at h
          cases h
          exact .cons ha ((ih bs).1 hl)
    · intro h
      cases h with
      | cons h1 h2 => rw [h1, (ih _).2 h2]; rfl

theorem forall₂_append {α β : Type} {R : α → β → Prop} {l1 l2 : List α} {l : List β} (h : List.Forall₂ R (l1 ++ l2) l) :
    ∃ m1 m2, List.Forall₂ R l1 m1 ∧ List.Forall₂ R l2 m2 ∧ l = m1 ++ m2 := by
  induction l1 generalizing l with
  | nil => exact ⟨[], l, .nil, h, rfl⟩
  | cons a l1 ih =>
    cases h with
    | cons h1 h2 =>
      obtain ⟨m1, m2, g1, g2, rfl⟩ := ih h2
      exact ⟨_ :: m1, m2, .cons h1 g1, g2, rfl⟩

theorem forall₂_mem {α β : Type} {R : α → β → Prop} {l : List α} {m : List β} (h : List.Forall₂ R l m) {b : β} (hb : b ∈ m) :
    ∃ a ∈ l, R a b := by
  induction h with
  | nil => cases hb
  | cons h1 h2 ih =>
    rcases List.mem_cons.1 hb with rfl | hb
    · exact ⟨_, by simp, h1⟩
    · obtain ⟨a, ha, hr⟩ := ih hb
      exact ⟨a, by simp [ha], hr⟩

/-- A row without its second term. -/
def blank (o : OutRow) : OutRow := { o with term2 := [] }

/-- What a row of the table gives, apart from its second term. -/
def Gives (hl hp : Bool) (r : RawRow) (o : Option OutRow) : Prop :=
  ∃ m c2, midRow hl hp r = .ok m ∧ reconstituteConf m.conf m.conf2 = .ok c2 ∧ o.map blank = m.level.map (fun l => blank (mkOut m c2 l))

theorem jjTerms_same (ms : List Mid) : List.Forall₂ (fun m m' => { m' with term2 := m.term2 } = m) ms (jjTerms ms) := by
  unfold jjTerms
  split
  · exact List.forall₂_same.2 (fun m _ => rfl)
  · rename_i h
    clear h
    induction ms with
    | nil => exact .nil
    | cons m ms ih =>
      refine .cons ?_ ih
      unfold jjRow
      split <;> rfl

theorem outRow_inv {m : Mid} {o : Option OutRow} (h : outRow m = .ok o) : ∃ c2, reconstituteConf m.conf m.conf2 = .ok c2 ∧
    o = m.level.map (mkOut m c2) := by
  unfold outRow at h
  cases hc : reconstituteConf m.conf m.conf2 with
  | error e => rw [hc] at h; cases h
  | ok c2 => rw [hc] at h; cases h; exact ⟨c2, rfl, rfl⟩

/-- The rows that have a level, with their labels. -/
def numbered (rows : List (Option OutRow)) : List (Nat × OutRow) := rows.zipIdx.filterMap fun p => p.1.map fun r => (p.2, r)

theorem clean_inv {t : Raw} {out : List OutRow} (h : clean t = .ok out) :
    ∃ rows n, List.Forall₂ (Gives t.hasLande t.hasPct) t.rows rows ∧ limitLabel (numbered rows) = .ok n ∧
      out = ((numbered rows).filter fun p => p.1 < n).flatMap fun p => splitJ p.2 := by
  unfold clean at h
  cases h1 : t.rows.mapM (midRow t.hasLande t.hasPct) with
  | error e => rw [h1] at h; cases h
  | ok ms =>
    rw [h1] at h
    cases h2 : (jjTerms ms).mapM outRow with
    | error e => simp only [bind, Except.bind, h2] at h; cases h
    | ok rows =>
      simp only [bind, Except.bind, h2] at h
      cases h3 : limitLabel (numbered rows) with
      | error e => unfold numbered at h3; rw [h3] at h; cases h
      | ok n =>
        refine ⟨rows, n, ?_, h3, ?_⟩
        · have a1 := (mapM_forall₂ _ _).1 h1
          have a2 := jjTerms_same ms
          have a3 := (mapM_forall₂ _ _).1 h2
          clear h h1 h2 h3
          generalize jjTerms ms = ms' at a2 a3
          generalize t.rows = rs at a1 ⊢
          induction a1 generalizing rows ms' with
          | nil => cases a2; cases a3; exact .nil
          | cons b1 b2 ih =>
            cases a2 with
            | cons c1 c2 => cases a3 with
              | cons d1 d2 =>
                refine .cons ?_ (ih _ _ c2 d2)
                rename_i r m rs ms m' o ms' os
                obtain ⟨c2, e1, e2⟩ := outRow_inv d1
                refine ⟨m, c2, b1, ?_, ?_⟩
                · rw [← c1]; exact e1
                · rw [e2, ← c1]
                  cases m'.level <;> rfl
        · unfold numbered at h3 ⊢
          rw [h3] at h
          cases h
          rfl

theorem clean_of {t : Raw} {ms : List Mid} {rows : List (Option OutRow)} (h1 : t.rows.mapM (midRow t.hasLande t.hasPct) = .ok ms)
    (h2 : (jjTerms ms).mapM outRow = .ok rows) : clean t = (limitLabel (numbered rows)).map
      fun n => ((numbered rows).filter fun p => p.1 < n).flatMap fun p => splitJ p.2 := by
  unfold clean
  rw [h1]
  simp only [bind, Except.bind, h2]
  unfold numbered
  cases limitLabel (rows.zipIdx.filterMap fun p => p.1.map fun r => (p.2, r)) <;> rfl

theorem numbered_from (rows : List (Option OutRow)) (k : Nat) :
    (rows.zipIdx k).filterMap (fun p => p.1.map fun r => (p.2, r)) = [] ∨
    ∃ i o, ((rows.zipIdx k).filterMap (fun p => p.1.map fun r => (p.2, r))).head? = some (i, o) ∧ k ≤ i ∧
      ∀ q ∈ (rows.zipIdx k).filterMap (fun p => p.1.map fun r => (p.2, r)), i ≤ q.1 := by
  induction rows generalizing k with
  | nil => left; rfl
  | cons a rows ih =>
    rw [List.zipIdx_cons]
    cases a with
    | none =>
      simp only [List.filterMap_cons, Option.map_none]
      rcases ih (k + 1) with h | ⟨i, o, h1, h2, h3⟩
      · exact .inl h
      · exact .inr ⟨i, o, h1, by omega, h3⟩
    | some o =>
      simp only [List.filterMap_cons, Option.map_some]
      refine .inr ⟨k, o, rfl, le_rfl, fun q hq => ?_⟩
      rcases List.mem_cons.1 hq with rfl | hq
      · exact le_rfl
      · simp only [List.mem_filterMap, Option.map_eq_some_iff] at hq
        obtain ⟨p, hp, r, -, rfl⟩ := hq
        have := List.le_snd_of_mem_zipIdx hp
        omega

/-- The rows before the first limit. -/
theorem cut_at (pre post : List (Option OutRow)) (r : OutRow) (hr : r.term = "Limit".toList)
    (hpre : ∀ o, some o ∈ pre → o.term ≠ "Limit".toList) : limitLabel (numbered (pre ++ some r :: post)) = .ok pre.length ∧
    ((numbered (pre ++ some r :: post)).filter fun p => p.1 < pre.length).map Prod.snd = pre.filterMap id := by
  have gen : ∀ k, ∃ l1 l2, ((pre ++ some r :: post).zipIdx k).filterMap (fun p => p.1.map fun r => (p.2, r)) = l1 ++ (k + pre.length, r) :: l2 ∧
      l1.map Prod.snd = pre.filterMap id ∧ (∀ q ∈ l1, q.1 < k + pre.length) ∧ ∀ q ∈ l2, k + pre.length < q.1 := by
    intro k
    clear hpre
    induction pre generalizing k with
    | nil =>
      refine ⟨[], (post.zipIdx (k + 1)).filterMap (fun p => p.1.map fun r => (p.2, r)), by simp [List.zipIdx_cons], rfl, by simp, ?_⟩
      intro q hq
      simp only [List.mem_filterMap, Option.map_eq_some_iff] at hq
      obtain ⟨p, hp, r, -, rfl⟩ := hq
      have := List.le_snd_of_mem_zipIdx hp
      simp only [List.length_nil]
      omega
    | cons a pre ih =>
      obtain ⟨l1, l2, h1, h2, h3, h4⟩ := ih (k + 1)
      cases a with
      | none =>
        refine ⟨l1, l2, ?_, by simpa using h2, fun q hq => ?_, fun q hq => ?_⟩
        · rw [List.cons_append, List.zipIdx_cons, List.filterMap_cons]
          simp only [Option.map_none]
          rw [h1]
          simp only [List.length_cons]
          congr 3
          omega
        · have := h3 q hq
          simp only [List.length_cons]
          omega
        · have := h4 q hq
          simp only [List.length_cons]
          omega
      | some o =>
        refine ⟨(k, o) :: l1, l2, ?_, by simpa using h2, fun q hq => ?_, fun q hq => ?_⟩
        · rw [List.cons_append, List.zipIdx_cons, List.filterMap_cons]
          simp only [Option.map_some]
          rw [h1]
          simp only [List.length_cons, List.cons_append]
          congr 4
          omega
        · simp only [List.length_cons]
          rcases List.mem_cons.1 hq with rfl | hq
          · simp only []; omega
          · have := h3 q hq
            omega
        · have := h4 q hq
          simp only [List.length_cons]
          omega
  obtain ⟨l1, l2, h1, h2, h3, h4⟩ := gen 0
  simp only [Nat.zero_add] at h1 h3 h4
  have hn : numbered (pre ++ some r :: post) = l1 ++ (pre.length, r) :: l2 := h1
  rw [hn]
  constructor
  · have hf : (l1 ++ (pre.length, r) :: l2).find? (fun p => p.2.term = "Limit".toList) = some (pre.length, r) := by
      rw [List.find?_append, List.find?_eq_none.2]
      · simp [hr]
      · intro q hq
        have : q.2 ∈ pre.filterMap id := by rw [← h2]; exact List.mem_map.2 ⟨q, hq, rfl⟩
        have := hpre q.2 (by simpa using this)
        simpa using this
    unfold limitLabel
    rw [hf]
  · rw [List.filter_append, List.filter_cons]
    have a1 : l1.filter (fun p => decide (p.1 < pre.length)) = l1 := List.filter_eq_self.2 (fun q hq => by simpa using h3 q hq)
    have a2 : l2.filter (fun p => decide (p.1 < pre.length)) = [] := List.filter_eq_nil_iff.2 (fun q hq => by
      have := h4 q hq
      simp only [decide_eq_true_eq]
      omega)
    rw [a1, a2]
    simp [h2]

/-! ## C85: the rows below the ionization limit -/

/-- The text of a cell without blanks and NIST's `=`, `"`, `?` around it. -/
def text (c : Option Str) : Str := (c.map strip).getD []

/-- The entries for one row of the table: none without a level, otherwise one for each of its values of `J`. -/
def entries (r : RawRow) : List (Str × ℚ × Str) := match toNumeric (text r.level) with
  | none => []
  | some x => (splitOn1 ',' (pyReplace " or".toList [','] (text r.J))).map fun j => (text r.conf, x, j)

/-- A row that marks an ionization limit. -/
def IsLimit (hp : Bool) (r : RawRow) : Prop := (toNumeric (text r.level)).isSome = true ∧
  termOf (text r.term) (if hp then text r.pct else "100.0".toList) = some "Limit".toList

instance (hp : Bool) (r : RawRow) : Decidable (IsLimit hp r) := by unfold IsLimit; infer_instance

theorem bind_ok_inv {α β : Type} {x : Py α} {f : α → Py β} {b : β} (h : (x >>= f) = .ok b) : ∃ a, x = .ok a ∧ f a = .ok b := by
  cases x with
  | error e => cases h
  | ok a => exact ⟨a, rfl, h⟩

theorem cell_text {c : Option Str} {s : Str} (h : cell c = .ok s) : text c = s := by
  cases c with
  | none => cases h
  | some a => cases h; rfl

theorem midRow_text {hl hp : Bool} {r : RawRow} {m : Mid} (h : midRow hl hp r = .ok m) : m.conf = text r.conf ∧ m.J = text r.J ∧
    m.level = toNumeric (text r.level) ∧ m.term = termOf (text r.term) (if hp then text r.pct else "100.0".toList) := by
  unfold midRow at h
  obtain ⟨a1, h1, h⟩ := bind_ok_inv h
  obtain ⟨a2, h2, h⟩ := bind_ok_inv h
  obtain ⟨a3, h3, h⟩ := bind_ok_inv h
  obtain ⟨a4, h4, h⟩ := bind_ok_inv h
  obtain ⟨a5, h5, h⟩ := bind_ok_inv h
  obtain ⟨a6, h6, h⟩ := bind_ok_inv h
  cases h
  rw [cell_text h1, cell_text h2, cell_text h3, cell_text h4]
  refine ⟨rfl, rfl, rfl, ?_⟩
  have : a6 = if hp then text r.pct else "100.0".toList := by
    unfold pctOf at h6
    split at h6
    · rw [if_pos ‹_›, cell_text h6]
    · rw [if_neg ‹_›]; cases h6; rfl
  rw [this]
  rfl

theorem gives_text {hl hp : Bool} {r : RawRow} {o : Option OutRow} (h : Gives hl hp r o) :
    (∀ x, o = some x → x.conf = text r.conf ∧ x.J = text r.J ∧ toNumeric (text r.level) = some x.level ∧
      x.term = (termOf (text r.term) (if hp then text r.pct else "100.0".toList)).getD []) ∧
    (o = none → toNumeric (text r.level) = none) := by
  obtain ⟨m, c2, h1, -, h3⟩ := h
  obtain ⟨e1, e2, e3, e4⟩ := midRow_text h1
  rw [← e1, ← e2, ← e3, ← e4]
  constructor
  · rintro x rfl
    cases hm : m.level with
    | none => rw [hm] at h3; cases h3
    | some l =>
      rw [hm] at h3
      simp only [Option.map_some, Option.some.injEq] at h3
      have hx : ∀ {γ : Type} (g : OutRow → γ), g (blank x) = g _ := fun g => congrArg g h3
      exact ⟨hx (·.conf), hx (·.J), congrArg some (hx (·.level)).symm, hx (·.term)⟩
  · rintro rfl
    cases hm : m.level with
    | none => rfl
    | some l => rw [hm] at h3; cases h3

theorem isLimit_of_gives {hl hp : Bool} {r : RawRow} {x : OutRow} (h : Gives hl hp r (some x)) :
    x.term = "Limit".toList ↔ IsLimit hp r := by
  obtain ⟨-, -, h3, h4⟩ := (gives_text h).1 x rfl
  unfold IsLimit
  rw [h3, h4]
  cases termOf (text r.term) (if hp then text r.pct else "100.0".toList) with
  | none => simp
  | some t => simp

/-- C85 in full: the rows with a level before the first ionization limit, all of them where there is no limit. -/
def C85_full : Prop := ∀ (t : Raw) (out : List OutRow), clean t = .ok out →
  out.map (fun o => (o.conf, o.level, o.J)) = (t.rows.takeWhile fun r => !decide (IsLimit t.hasPct r)).flatMap entries

theorem entries_of_gives {hl hp : Bool} {rs : List RawRow} {os : List (Option OutRow)} (h : List.Forall₂ (Gives hl hp) rs os) :
    ((os.filterMap id).flatMap splitJ).map (fun o => (o.conf, o.level, o.J)) = rs.flatMap entries := by
  induction h with
  | nil => rfl
  | cons h1 h2 ih =>
    rename_i r o rs os
    rw [List.flatMap_cons, ← ih]
    cases o with
    | none => simp [entries, (gives_text h1).2 rfl]
    | some x =>
      obtain ⟨e1, e2, e3, -⟩ := (gives_text h1).1 x rfl
      simp only [List.filterMap_cons, id, List.flatMap_cons, List.map_append]
      congr 1
      unfold entries splitJ
      rw [e3, ← e1, ← e2]
      simp

/-- C85: where the table has a limit, the result has exactly the rows with a level before the first limit, in order, each once for every
one of its values of `J`. -/
theorem C85_cut_partial (t : Raw) (out : List OutRow) (h : clean t = .ok out) (hl : ∃ r ∈ t.rows, IsLimit t.hasPct r) :
    out.map (fun o => (o.conf, o.level, o.J)) = (t.rows.takeWhile fun r => !decide (IsLimit t.hasPct r)).flatMap entries := by
  obtain ⟨rows, n, h1, h2, h3⟩ := clean_inv h
  obtain ⟨r0, hr0, hlim0⟩ := hl
  set q : RawRow → Bool := fun r => !decide (IsLimit t.hasPct r) with hq
  have hne : t.rows.dropWhile q ≠ [] := by
    intro hd
    have := List.dropWhile_eq_nil_iff.1 hd r0 hr0
    simp [hq, hlim0] at this
  obtain ⟨r, post, hd⟩ := List.exists_cons_of_ne_nil hne
  have hsplit : t.rows = t.rows.takeWhile q ++ r :: post := by rw [← hd, List.takeWhile_append_dropWhile]
  have hr : IsLimit t.hasPct r := by
    have := List.head_dropWhile_not q (l := t.rows) hne
    simp only [hd, List.head_cons] at this
    simpa [hq] using this
  rw [hsplit] at h1
  obtain ⟨o1, o2, hf1, hf2, rfl⟩ := forall₂_append h1
  cases hf2 with
  | cons g1 g2 =>
    rename_i o os
    cases o with
    | none =>
      have := (gives_text g1).2 rfl
      have h0 := hr.1
      rw [this] at h0
      cases h0
    | some x =>
      have hno : ∀ y, some y ∈ o1 → y.term ≠ "Limit".toList := by
        intro y hy
        obtain ⟨r', hr', hg⟩ := forall₂_mem hf1 hy
        rw [Ne, isLimit_of_gives hg]
        have := List.all_eq_true.1 (List.all_takeWhile (p := q) (l := t.rows)) r' hr'
        simpa [hq] using this
      obtain ⟨c1, c2⟩ := cut_at o1 os x ((isLimit_of_gives g1).2 hr) hno
      rw [c1] at h2
      cases h2
      have : out = (((numbered (o1 ++ some x :: os)).filter fun p => p.1 < o1.length).map Prod.snd).flatMap splitJ := by
        rw [h3, List.flatMap_map]
      rw [this, c2]
      exact entries_of_gives hf1

/-- C85: without a limit nothing is left, whatever the table holds. -/
theorem C85_no_limit (t : Raw) (out : List OutRow) (h : clean t = .ok out) (hl : ∀ r ∈ t.rows, ¬IsLimit t.hasPct r) : out = [] := by
  obtain ⟨rows, n, h1, h2, rfl⟩ := clean_inv h
  have hno : ∀ q ∈ numbered rows, q.2.term ≠ "Limit".toList := by
    intro q hq
    simp only [numbered, List.mem_filterMap, Option.map_eq_some_iff] at hq
    obtain ⟨p, hp, r, h3, rfl⟩ := hq
    have hm : some r ∈ rows := by
      obtain ⟨k, hk, e⟩ := List.mem_iff_getElem.1 hp
      rw [List.getElem_zipIdx] at e
      rw [← h3, ← e]
      exact List.getElem_mem _
    obtain ⟨r', hr', hg⟩ := forall₂_mem h1 hm
    rw [Ne, isLimit_of_gives hg]
    exact hl r' hr'
  have hfind : (numbered rows).find? (fun p => p.2.term = "Limit".toList) = none := by
    rw [List.find?_eq_none]
    intro q hq
    simpa using hno q hq
  unfold limitLabel at h2
  rw [hfind] at h2
  have hall : ∀ q ∈ numbered rows, n ≤ q.1 := by
    rcases numbered_from rows 0 with h | ⟨i, o, a1, -, a3⟩
    · intro q hq
      unfold numbered at hq
      rw [h] at hq
      cases hq
    · cases hn : numbered rows with
      | nil => simp
      | cons a l =>
        rw [hn] at h2
        cases h2
        unfold numbered at hn
        rw [hn] at a1 a3
        cases a1
        exact a3
  rw [List.flatMap_eq_nil_iff]
  intro p hp
  rw [List.mem_filter] at hp
  have := hall p hp.1
  have h4 := hp.2
  simp only [decide_eq_true_eq] at h4
  omega

/-- C85: a table none of whose rows has a level raises. -/
theorem C85_no_levels (t : Raw) (out : List OutRow) (hl : ∀ r ∈ t.rows, toNumeric (text r.level) = none) : clean t ≠ .ok out := by
  intro h
  obtain ⟨rows, n, h1, h2, -⟩ := clean_inv h
  have : numbered rows = [] := by
    unfold numbered
    rw [List.filterMap_eq_nil_iff]
    intro p hp
    obtain ⟨k, hk, e⟩ := List.mem_iff_getElem.1 hp
    rw [List.getElem_zipIdx] at e
    have hm : p.1 ∈ rows := by rw [← e]; exact List.getElem_mem _
    obtain ⟨r', hr', hg⟩ := forall₂_mem h1 hm
    cases hp1 : p.1 with
    | none => rfl
    | some x =>
      rw [hp1] at hg
      have := ((gives_text hg).1 x rfl).2.2.1
      rw [hl r' hr'] at this
      cases this
  rw [this] at h2
  cases h2

/-- The cells of a row that are read. -/
def cells (hl hp : Bool) (r : RawRow) : List (Option Str) :=
  [r.conf, r.term, r.J, r.level] ++ (if hl then [r.lande] else []) ++ if hp then [r.pct] else []

/-- C85: an empty cell (NaN) anywhere in the table, whether before the limit or after it, ends the call with `AttributeError`. -/
theorem C85_missing (t : Raw) {r : RawRow} (hr : r ∈ t.rows) (hn : none ∈ cells t.hasLande t.hasPct r) : clean t = .error .AttributeError := by
  have hc : ∀ (o : Option Str) (e : PyErr), cell o = .error e → e = .AttributeError := by
    rintro (_ | s) e h
    · cases h; rfl
    · cases h
  have hmid : ∀ r : RawRow, (∃ m, midRow t.hasLande t.hasPct r = .ok m) ∨ midRow t.hasLande t.hasPct r = .error .AttributeError := by
    rintro ⟨_ | a, _ | b, _ | c, _ | d, _ | e, _ | f⟩ <;> cases t.hasLande <;> cases t.hasPct <;>
      first
      | exact .inr rfl
      | exact .inl ⟨_, rfl⟩
  have hbad : midRow t.hasLande t.hasPct r = .error .AttributeError := by
    obtain ⟨a, b, c, d, e, f⟩ := r
    unfold cells at hn
    rcases a with _ | a <;> rcases b with _ | b <;> rcases c with _ | c <;> rcases d with _ | d <;> rcases e with _ | e <;> rcases f with _ | f <;>
      revert hn <;> cases t.hasLande <;> cases t.hasPct <;> intro hn <;>
      first
      | rfl
      | simp at hn
  have hall : ∀ rows : List RawRow, r ∈ rows → rows.mapM (midRow t.hasLande t.hasPct) = .error .AttributeError := by
    intro rows
    induction rows with
    | nil => simp
    | cons x rows ih =>
      intro hm
      rw [List.mapM_cons]
      rcases hmid x with ⟨m, hx⟩ | hx
      · rw [hx]
        have : r ∈ rows := by
          rcases List.mem_cons.1 hm with rfl | h
          · rw [hbad] at hx; cases hx
          · exact h
        show (do let rest ← List.mapM (midRow t.hasLande t.hasPct) rows; _) = _
        rw [ih this]; rfl
      · rw [hx]; rfl
  unfold clean
  rw [hall t.rows hr]
  rfl

/-- A row with the given cells. -/
def mkRow (conf term J level pct : String) : RawRow :=
  ⟨some conf.toList, some term.toList, some J.toList, some level.toList, some [], some pct.toList⟩

/-- Two levels and the limit, as in a NIST table. -/
def demoRows : List RawRow := [mkRow "=\"4f14.6s\"" "=\"2S\"" "=\"1/2\"" "=\"0.000\"" "=\"100\"",
  mkRow "=\"4f14.6p\"" "=\"2P*\"" "=\"1/2,3/2\"" "=\"27061.82\"" "=\"96    :  3  4f13.(2F*).5d.6s    3[1/2]*\""]

/-- The row of the ionization limit. -/
def limitRow : RawRow := mkRow "Yb III (4f14 1S0)" "Limit" "---" "98231.75" ""

example : (clean ⟨demoRows ++ [limitRow], true, true⟩).map (fun out => out.map fun o => (String.ofList o.conf, o.level, String.ofList o.J)) =
    .ok [("4f14.6s", 0, "1/2"), ("4f14.6p", 2706182/100, "1/2"), ("4f14.6p", 2706182/100, "3/2")] := by decide +kernel
example : ∃ r ∈ demoRows ++ [limitRow], IsLimit true r := ⟨limitRow, by simp, by decide +kernel⟩
example : ∀ r ∈ demoRows, ¬IsLimit true r := by decide +kernel

example : none ∈ cells true true { mkRow "a" "b" "c" "1" "" with J := none } := by decide

/-- C85 fails: from a table without a limit nothing is loaded. -/
theorem C85_fails : ¬C85_full := by
  intro h
  have := h ⟨demoRows, true, true⟩ [] (by decide +kernel)
  revert this
  decide +kernel

/-! ## C86: rows are cleaned one by one -/

/-- C86 in full: a table, closed by a limit, gives what its rows give when each is alone with the limit. -/
def C86_full : Prop := ∀ (hl hp : Bool) (rs : List RawRow) (outs : List (List OutRow)), (∀ r ∈ rs, ¬IsLimit hp r) →
  List.Forall₂ (fun r o => clean ⟨[r, limitRow], hl, hp⟩ = .ok o) rs outs → clean ⟨rs ++ [limitRow], hl, hp⟩ = .ok outs.flatten

/-- The second component of a row can be given a term: it has one, or there are two values of `J` in its configuration. -/
def Termed (hl hp : Bool) (r : RawRow) : Prop := ∀ m k, midRow hl hp r = .ok m → m.term2int = some k → 2 ≤ k.length

theorem jjTerm_ok {k : List Str} (h : 2 ≤ k.length) : ∃ s, jjTerm k = .ok s := by
  match k, h with
  | a :: b :: _, _ => exact ⟨_, rfl⟩

theorem jjTerms_good {ms : List Mid} (h : ∀ m ∈ ms, ∀ k, m.term2int = some k → 2 ≤ k.length) : jjTerms ms = ms.map jjRow := by
  unfold jjTerms
  have : ∃ l, (ms.filterMap (fun m => m.term2int)).mapM jjTerm = .ok l := by
    induction ms with
    | nil => exact ⟨[], rfl⟩
    | cons m ms ih =>
      obtain ⟨l, hl⟩ := ih (fun m hm => h m (by simp [hm]))
      cases hm : m.term2int with
      | none => exact ⟨l, by rw [List.filterMap_cons, hm]; exact hl⟩
      | some k =>
        obtain ⟨s, hs⟩ := jjTerm_ok (h m (by simp) k hm)
        exact ⟨s :: l, by rw [List.filterMap_cons, hm]; simp only [List.mapM_cons, hs, hl]; rfl⟩
  obtain ⟨l, hl⟩ := this
  rw [hl]

theorem forall₂_app {α β : Type} {R : α → β → Prop} {l1 l2 : List α} {m1 m2 : List β} (h1 : List.Forall₂ R l1 m1) (h2 : List.Forall₂ R l2 m2) :
    List.Forall₂ R (l1 ++ l2) (m1 ++ m2) := by
  induction h1 with
  | nil => exact h2
  | cons a _ ih => exact .cons a ih

theorem forall₂_map_left {α β γ : Type} {R : β → γ → Prop} {f : α → β} {l : List α} {m : List γ} (h : List.Forall₂ (fun a c => R (f a) c) l m) :
    List.Forall₂ R (l.map f) m := by
  induction h with
  | nil => exact .nil
  | cons a _ ih => exact .cons a ih

theorem limit_mid (hl hp : Bool) : ∃ m o, midRow hl hp limitRow = .ok m ∧ m.term2int = none ∧ outRow m = .ok (some o) ∧ o.term = "Limit".toList := by
  have k1 : ∀ hl hp : Bool, (midRow hl hp limitRow).map (fun m => m.term2int) = .ok none := by decide +kernel
  have k2 : ∀ hl hp : Bool, ((midRow hl hp limitRow).bind outRow).map (fun o => o.map fun x => x.term) = .ok (some "Limit".toList) := by
    decide +kernel
  have k1 := k1 hl hp
  have k2 := k2 hl hp
  cases hm : midRow hl hp limitRow with
  | error e => rw [hm] at k1; cases k1
  | ok m =>
    rw [hm] at k1 k2
    have h1 : m.term2int = none := Except.ok.inj k1
    cases ho : outRow m with
    | error e => simp only [Except.bind, ho] at k2; cases k2
    | ok x =>
      simp only [Except.bind, ho] at k2
      cases x with
      | none => cases k2
      | some o => exact ⟨m, o, rfl, h1, ho, Option.some.inj (Except.ok.inj k2)⟩

theorem jjRow_limit {m : Mid} (h : m.term2int = none) : jjRow m = m := by unfold jjRow; rw [h]

theorem outRow_level {m : Mid} {x : OutRow} (h : outRow m = .ok (some x)) : x.term = m.term.getD [] ∧ m.level.isSome = true := by
  obtain ⟨c2, -, h2⟩ := outRow_inv h
  cases hl : m.level with
  | none => rw [hl] at h2; cases h2
  | some l => rw [hl] at h2; cases h2; exact ⟨rfl, rfl⟩

theorem jjRow_keeps (m : Mid) : (jjRow m).term = m.term ∧ (jjRow m).level = m.level := by
  unfold jjRow
  split <;> exact ⟨rfl, rfl⟩

theorem not_limit_row {hl hp : Bool} {r : RawRow} {m : Mid} {x : OutRow} (h1 : midRow hl hp r = .ok m) (h2 : outRow (jjRow m) = .ok (some x))
    (h : ¬IsLimit hp r) : x.term ≠ "Limit".toList := by
  intro e
  obtain ⟨a1, a2⟩ := outRow_level h2
  obtain ⟨-, -, e3, e4⟩ := midRow_text h1
  rw [(jjRow_keeps m).1] at a1
  rw [(jjRow_keeps m).2] at a2
  refine h ⟨by rw [← e3]; exact a2, ?_⟩
  rw [← e4]
  rw [e] at a1
  cases hm : m.term with
  | none => rw [hm] at a1; exact absurd a1 (by decide)
  | some t => rw [hm] at a1; rw [a1]; rfl

theorem clean_limit {hl hp : Bool} {rs : List RawRow} {ms : List Mid} {rows : List (Option OutRow)}
    (h1 : List.Forall₂ (fun r m => midRow hl hp r = .ok m) rs ms) (hg : ∀ r ∈ rs, Termed hl hp r) (hn : ∀ r ∈ rs, ¬IsLimit hp r)
    (h2 : List.Forall₂ (fun m o => outRow (jjRow m) = .ok o) ms rows) :
    clean ⟨rs ++ [limitRow], hl, hp⟩ = .ok ((rows.filterMap id).flatMap splitJ) := by
  obtain ⟨lm, lo, l1, l2, l3, l4⟩ := limit_mid hl hp
  have a1 : (rs ++ [limitRow]).mapM (midRow hl hp) = .ok (ms ++ [lm]) := (mapM_forall₂ _ _).2 (forall₂_app h1 (.cons l1 .nil))
  have a2 : jjTerms (ms ++ [lm]) = (ms ++ [lm]).map jjRow := by
    refine jjTerms_good (fun m hm k hk => ?_)
    rcases List.mem_append.1 hm with hm | hm
    · obtain ⟨r, hr, h⟩ := forall₂_mem h1 hm
      exact hg r hr m k h hk
    · simp only [List.mem_singleton] at hm
      rw [hm, l2] at hk
      cases hk
  have a3 : ((ms ++ [lm]).map jjRow).mapM outRow = .ok (rows ++ [some lo]) := by
    refine (mapM_forall₂ _ _).2 (forall₂_map_left (forall₂_app h2 (.cons ?_ .nil)))
    rw [jjRow_limit l2]
    exact l3
  have hnl : ∀ o, some o ∈ rows → o.term ≠ "Limit".toList := by
    intro o ho
    clear a1 a2 a3 hg
    induction h1 generalizing rows with
    | nil => cases h2; cases ho
    | cons b1 b2 ih =>
      cases h2 with
      | cons c1 c2 =>
        rcases List.mem_cons.1 ho with rfl | ho
        · exact not_limit_row b1 c1 (hn _ (by simp))
        · exact ih (fun r hr => hn r (by simp [hr])) c2 ho
  rw [clean_of a1 (by rw [a2]; exact a3)]
  obtain ⟨c1, c2⟩ := cut_at rows [] lo l4 hnl
  rw [c1]
  show Except.ok _ = _
  rw [← c2, List.flatMap_map]

/-- C86: rows all of whose second components can be given a term are cleaned independently of each other. -/
theorem C86_separate_partial (hl hp : Bool) (rs : List RawRow) (outs : List (List OutRow)) (hn : ∀ r ∈ rs, ¬IsLimit hp r)
    (hg : ∀ r ∈ rs, Termed hl hp r) (h : List.Forall₂ (fun r o => clean ⟨[r, limitRow], hl, hp⟩ = .ok o) rs outs) :
    clean ⟨rs ++ [limitRow], hl, hp⟩ = .ok outs.flatten := by
  have : ∃ ms rows, List.Forall₂ (fun r m => midRow hl hp r = .ok m) rs ms ∧ List.Forall₂ (fun m o => outRow (jjRow m) = .ok o) ms rows ∧
      (rows.filterMap id).flatMap splitJ = outs.flatten := by
    induction h with
    | nil => exact ⟨[], [], .nil, .nil, rfl⟩
    | cons b1 b2 ih =>
      rename_i r o rs outs
      obtain ⟨ms, rows, i1, i2, i3⟩ := ih (fun r hr => hn r (by simp [hr])) (fun r hr => hg r (by simp [hr]))
      have hr : ¬IsLimit hp r := hn r (by simp)
      have hgr : Termed hl hp r := hg r (by simp)
      have hb := b1
      unfold clean at hb
      obtain ⟨ms', c1, hb⟩ := bind_ok_inv hb
      obtain ⟨rows', c2, -⟩ := bind_ok_inv hb
      cases (mapM_forall₂ _ _).1 c1 with
      | cons d1 d2 => cases d2 with
        | cons d2 d3 => cases d3 with
          | nil =>
            rename_i m lm
            obtain ⟨lm', lo, l1, l2, l3, l4⟩ := limit_mid hl hp
            have hlm : lm' = lm := by
              have := l1.symm.trans d2
              cases this
              rfl
            subst hlm
            have e : jjTerms [m, lm'] = [m, lm'].map jjRow := by
              refine jjTerms_good (fun m' hm k hk => ?_)
              simp only [List.mem_cons, List.not_mem_nil, or_false] at hm
              rcases hm with rfl | rfl
              · exact hgr _ k d1 hk
              · rw [l2] at hk; cases hk
            rw [e] at c2
            cases (mapM_forall₂ _ _).1 c2 with
            | cons e1 e2 =>
              rename_i row rest
              have hcl := clean_limit (rs := [r]) (.cons d1 .nil) (by simpa using hgr) (by simpa using hr) (.cons e1 .nil)
              have : o = (([row] : List (Option OutRow)).filterMap id).flatMap splitJ := by
                have := b1.symm.trans hcl
                cases this
                rfl
              refine ⟨m :: ms, row :: rows, .cons d1 i1, .cons e1 i2, ?_⟩
              rw [List.flatten_cons, ← i3, this]
              cases row <;> simp
  obtain ⟨ms, rows, h1, h2, h3⟩ := this
  rw [clean_limit h1 hg hn h2, h3]

theorem outRow_blank {m m' : Mid} (h : { m' with term2 := m.term2 } = m) :
    (outRow m').map (fun o => o.map blank) = (outRow m).map (fun o => o.map blank) := by
  rw [← h]
  unfold outRow
  cases reconstituteConf m'.conf m'.conf2 with
  | error e => rfl
  | ok c => simp only [bind, Except.bind]; cases m'.level <;> rfl

theorem outRow_blank_ok {m m' : Mid} (h : { m' with term2 := m.term2 } = m) {o : Option OutRow} (ho : outRow m = .ok o) :
    ∃ o', outRow m' = .ok o' ∧ o'.map blank = o.map blank := by
  have := outRow_blank h
  rw [ho] at this
  cases ho' : outRow m' with
  | error e => rw [ho'] at this; cases this
  | ok o' => rw [ho'] at this; exact ⟨o', rfl, Except.ok.inj this⟩

theorem blank_splitJ {x y : OutRow} (h : blank x = blank y) : (splitJ x).map blank = (splitJ y).map blank := by
  have hJ : (blank x).J = (blank y).J := by rw [h]
  change x.J = y.J at hJ
  unfold splitJ
  rw [hJ, List.map_map, List.map_map]
  refine List.map_congr_left (fun j _ => ?_)
  have : ∀ z : OutRow, blank { z with J := j } = { blank z with J := j } := fun z => rfl
  simp only [Function.comp, this, h]

theorem rows_blank {l1 l2 : List (Option OutRow)} (h : List.Forall₂ (fun a b => a.map blank = b.map blank) l1 l2) :
    ((l1.filterMap id).flatMap splitJ).map blank = ((l2.filterMap id).flatMap splitJ).map blank := by
  induction h with
  | nil => rfl
  | cons h1 h2 ih =>
    rename_i a b l1 l2
    cases a with
    | none =>
      cases b with
      | none => simpa using ih
      | some y => cases h1
    | some x =>
      cases b with
      | none => cases h1
      | some y =>
        have h1 : blank x = blank y := Option.some.inj h1
        have e : ∀ (z : OutRow) (l : List (Option OutRow)), ((some z :: l).filterMap id).flatMap splitJ = splitJ z ++ (l.filterMap id).flatMap splitJ :=
          fun z l => rfl
        rw [e, e, List.map_append, List.map_append, ih, blank_splitJ h1]

/-- What a table closed by a limit gives, apart from the second terms. -/
theorem clean_limit_blank {hl hp : Bool} {rs : List RawRow} {ms : List Mid} {rows : List (Option OutRow)}
    (h1 : List.Forall₂ (fun r m => midRow hl hp r = .ok m) rs ms) (hn : ∀ r ∈ rs, ¬IsLimit hp r)
    (h2 : List.Forall₂ (fun m o => outRow m = .ok o) ms rows) :
    ∃ out, clean ⟨rs ++ [limitRow], hl, hp⟩ = .ok out ∧ out.map blank = ((rows.filterMap id).flatMap splitJ).map blank := by
  obtain ⟨lm, lo, l1, l2, l3, l4⟩ := limit_mid hl hp
  have a1 : (rs ++ [limitRow]).mapM (midRow hl hp) = .ok (ms ++ [lm]) := (mapM_forall₂ _ _).2 (forall₂_app h1 (.cons l1 .nil))
  have a2 : ∃ ms' lm', jjTerms (ms ++ [lm]) = ms' ++ [lm'] ∧ List.Forall₂ (fun m m' => { m' with term2 := m.term2 } = m) ms ms' ∧
      { lm' with term2 := lm.term2 } = lm := by
    obtain ⟨m1, m2, g1, g2, e⟩ := forall₂_append (jjTerms_same (ms ++ [lm]))
    cases g2 with
    | cons g2 g3 => cases g3; exact ⟨m1, _, e, g1, g2⟩
  obtain ⟨ms', lm', e1, e2, e3⟩ := a2
  obtain ⟨lo', l5, l6⟩ := outRow_blank_ok e3 l3
  cases lo' with
  | none => cases l6
  | some lo' =>
    have l7 : lo'.term = "Limit".toList := by
      have : blank lo' = blank lo := Option.some.inj l6
      have : (blank lo').term = (blank lo).term := by rw [this]
      change lo'.term = lo.term at this
      rw [this, l4]
    have a3 : ∃ rows', List.Forall₂ (fun m o => outRow m = .ok o) ms' rows' ∧ List.Forall₂ (fun a b => a.map blank = b.map blank) rows' rows ∧
        ∀ o, some o ∈ rows' → o.term ≠ "Limit".toList := by
      clear a1 e1
      induction h1 generalizing rows ms' with
      | nil => cases h2; cases e2; exact ⟨[], .nil, .nil, by simp⟩
      | cons b1 b2 ih =>
        cases h2 with
        | cons c1 c2 => cases e2 with
          | cons d1 d2 =>
            obtain ⟨rows', i1, i2, i3⟩ := ih (fun r hr => hn r (by simp [hr])) c2 _ d2
            obtain ⟨o', j1, j2⟩ := outRow_blank_ok d1 c1
            refine ⟨o' :: rows', .cons j1 i1, .cons j2 i2, fun o ho => ?_⟩
            rcases List.mem_cons.1 ho with rfl | ho
            · rename_i r m rs ms o1 os m' ms'
              have hr : ¬IsLimit hp r := hn r (by simp)
              obtain ⟨f1, f2⟩ := outRow_level j1
              intro e
              obtain ⟨-, -, g3, g4⟩ := midRow_text b1
              have k1 : m.term = m'.term := by rw [← d1]
              have k2 : m.level = m'.level := by rw [← d1]
              refine hr ⟨by rw [← g3, k2]; exact f2, ?_⟩
              rw [← g4, k1]
              rw [e] at f1
              cases hm : m'.term with
              | none => rw [hm] at f1; exact absurd f1 (by decide)
              | some t => rw [hm] at f1; rw [f1]; rfl
            · exact i3 o ho
    obtain ⟨rows', b1, b2, b3⟩ := a3
    have a4 : (ms' ++ [lm']).mapM outRow = .ok (rows' ++ [some lo']) := (mapM_forall₂ _ _).2 (forall₂_app b1 (.cons l5 .nil))
    obtain ⟨c1, c2⟩ := cut_at rows' [] lo' l7 b3
    refine ⟨_, ?_, rows_blank b2⟩
    rw [clean_of a1 (by rw [e1]; exact a4), c1]
    show Except.ok _ = _
    rw [← c2, List.flatMap_map]

/-- What a row alone with a limit has. -/
theorem alone_inv {hl hp : Bool} {r : RawRow} {out : List OutRow} (h : clean ⟨[r, limitRow], hl, hp⟩ = .ok out) :
    ∃ m o, midRow hl hp r = .ok m ∧ outRow m = .ok o := by
  unfold clean at h
  obtain ⟨ms', c1, h⟩ := bind_ok_inv h
  obtain ⟨rows', c2, -⟩ := bind_ok_inv h
  cases (mapM_forall₂ _ _).1 c1 with
  | cons d1 d2 =>
    rename_i m ms'
    have g := jjTerms_same (m :: ms')
    generalize jjTerms (m :: ms') = l at g c2
    cases g with
    | cons g1 g2 =>
      cases (mapM_forall₂ _ _).1 c2 with
      | cons e1 e2 =>
        obtain ⟨o, ho, -⟩ := outRow_blank_ok (m' := m) (m := _) (by rw [← g1]) e1
        exact ⟨m, o, d1, ho⟩

/-- C86: apart from the second terms, rows are always cleaned independently of each other. -/
theorem C86_columns_partial (hl hp : Bool) (rs : List RawRow) (outs : List (List OutRow)) (hn : ∀ r ∈ rs, ¬IsLimit hp r)
    (h : List.Forall₂ (fun r o => clean ⟨[r, limitRow], hl, hp⟩ = .ok o) rs outs) :
    ∃ out, clean ⟨rs ++ [limitRow], hl, hp⟩ = .ok out ∧
      out.map (fun o => { o with term2 := [] }) = outs.flatten.map (fun o => { o with term2 := [] }) := by
  have : ∃ ms rows, List.Forall₂ (fun r m => midRow hl hp r = .ok m) rs ms ∧ List.Forall₂ (fun m o => outRow m = .ok o) ms rows ∧
      ((rows.filterMap id).flatMap splitJ).map blank = outs.flatten.map blank := by
    induction h with
    | nil => exact ⟨[], [], .nil, .nil, rfl⟩
    | cons b1 b2 ih =>
      rename_i r o rs outs
      obtain ⟨ms, rows, i1, i2, i3⟩ := ih (fun r hr => hn r (by simp [hr]))
      obtain ⟨m, x, j1, j2⟩ := alone_inv b1
      obtain ⟨out, k1, k2⟩ := clean_limit_blank (rs := [r]) (.cons j1 .nil) (by simpa using hn r (by simp)) (.cons j2 .nil)
      have : o = out := Except.ok.inj (b1.symm.trans k1)
      refine ⟨m :: ms, x :: rows, .cons j1 i1, .cons j2 i2, ?_⟩
      rw [List.flatten_cons, List.map_append, ← i3, this, k2, ← List.map_append]
      cases x <;> simp
  obtain ⟨ms, rows, h1, h2, h3⟩ := this
  obtain ⟨out, k1, k2⟩ := clean_limit_blank h1 hn h2
  exact ⟨out, k1, k2.trans h3⟩

/-- A row whose second component has its term in the configuration, and one whose second component has none. -/
def jjDemo : RawRow := mkRow "4f13.(2F*<7/2>).6s.6p" "3[5/2]" "5/2" "30000" "90    :  3  4f13.(2F*<7/2>).5d.(2D<3/2>)"
def bareDemo : RawRow := mkRow "4f14.5d" "2D" "3/2" "22960.8" "95  :  4  4f14.7s"

example : Termed true true jjDemo := by
  intro m k h hk
  have : (midRow true true jjDemo).map (fun m => m.term2int) = .ok (some ["7/2".toList, "3/2".toList]) := by decide +kernel
  rw [h] at this
  have := hk.symm.trans (Except.ok.inj this)
  cases this
  decide
example : (clean ⟨[jjDemo, limitRow], true, true⟩).map (fun o => o.map fun x => String.ofList x.term2) = .ok ["(7/2, 3/2)"] := by decide +kernel

/-- C86 fails: one row without a second term takes the second terms of all others away. -/
theorem C86_fails : ¬C86_full := by
  intro h
  have := h true true [jjDemo, bareDemo] [((clean ⟨[jjDemo, limitRow], true, true⟩).toOption).getD [],
    ((clean ⟨[bareDemo, limitRow], true, true⟩).toOption).getD []] (by decide +kernel) (.cons (by decide +kernel) (.cons (by decide +kernel) .nil))
  revert this
  decide +kernel

/-! ## C87: the leading percentages -/

theorem term2int_none {hl hp : Bool} {r : RawRow} {m : Mid} (h : midRow hl hp r = .ok m) : m.term2int ≠ none → m.term2 = none := by
  unfold midRow at h
  obtain ⟨a1, h1, h⟩ := bind_ok_inv h
  obtain ⟨a2, h2, h⟩ := bind_ok_inv h
  obtain ⟨a3, h3, h⟩ := bind_ok_inv h
  obtain ⟨a4, h4, h⟩ := bind_ok_inv h
  obtain ⟨a5, h5, h⟩ := bind_ok_inv h
  obtain ⟨a6, h6, h⟩ := bind_ok_inv h
  cases h
  intro hne
  unfold mkMid at hne ⊢
  simp only at hne ⊢
  by_contra hc
  rw [if_neg hc] at hne
  exact hne rfl

/-- The row or rows a single line gives. -/
theorem alone_out {hl hp : Bool} {r : RawRow} {out : List OutRow} (h : clean ⟨[r, limitRow], hl, hp⟩ = .ok out) (hn : ¬IsLimit hp r) :
    ∃ m c2, midRow hl hp r = .ok m ∧ reconstituteConf m.conf m.conf2 = .ok c2 ∧
      out = ((m.level.map (mkOut (jjRow m) c2)).toList).flatMap splitJ := by
  obtain ⟨m, o, h1, h2⟩ := alone_inv h
  have hout : ∃ o', outRow (jjRow m) = .ok o' ∧ out = o'.toList.flatMap splitJ := by
    obtain ⟨o', ho', -⟩ := outRow_blank_ok (m := m) (m' := jjRow m) (by unfold jjRow; split <;> rfl) h2
    refine ⟨o', ho', ?_⟩
    by_cases hk : ∀ k, m.term2int = some k → 2 ≤ k.length
    · have hT : Termed hl hp r := by
        intro m' k e1 e2
        cases h1.symm.trans e1
        exact hk k e2
      have := clean_limit (rs := [r]) (.cons h1 .nil) (by simpa using hT) (by simpa using hn) (.cons ho' .nil)
      have := Except.ok.inj (h.symm.trans this)
      rw [this]
      cases o' <;> rfl
    · simp only [not_forall, not_le] at hk
      obtain ⟨k, hk1, hk2⟩ := hk
      have herr : jjTerm k = .error .IndexError := by
        match k, hk2 with
        | [], _ => rfl
        | [a], _ => rfl
      have hsame : jjRow m = m := by
        have := term2int_none h1 (by rw [hk1]; simp)
        unfold jjRow
        rw [hk1]
        simp only [herr]
        show ({ m with term2 := none, term2int := some k } : Mid) = m
        rw [← this, ← hk1]
      obtain ⟨lm, lo, l1, l2, l3, l4⟩ := limit_mid hl hp
      have a1 : ([r, limitRow]).mapM (midRow hl hp) = .ok [m, lm] := (mapM_forall₂ _ _).2 (.cons h1 (.cons l1 .nil))
      have a2 : jjTerms [m, lm] = [m, lm] := by
        unfold jjTerms
        rw [List.filterMap_cons, hk1, List.filterMap_cons, l2]
        simp only [List.filterMap_nil, List.mapM_cons, herr]
        rfl
      have a3 : ([m, lm]).mapM outRow = .ok [o', some lo] := (mapM_forall₂ _ _).2 (.cons (hsame ▸ ho') (.cons l3 .nil))
      have a4 := clean_of (t := ⟨[r, limitRow], hl, hp⟩) a1 (by rw [a2]; exact a3)
      obtain ⟨c1, c2⟩ := cut_at [o'] [] lo l4 (fun x hx => by
        simp only [List.mem_singleton] at hx
        exact not_limit_row h1 (hx ▸ ho') hn)
      have e : [o', some lo] = [o'] ++ [some lo] := rfl
      rw [e, c1] at a4
      have := Except.ok.inj (h.symm.trans a4)
      rw [this]
      show List.flatMap (fun p => splitJ p.2) (List.filter (fun p => decide (p.1 < [o'].length)) (numbered ([o'] ++ [some lo]))) = _
      rw [← List.flatMap_map Prod.snd splitJ, c2]
      cases o' <;> rfl
  obtain ⟨o', e1, e2⟩ := hout
  obtain ⟨c2, f1, f2⟩ := outRow_inv e1
  have g1 : (jjRow m).conf = m.conf ∧ (jjRow m).conf2 = m.conf2 := by unfold jjRow; split <;> exact ⟨rfl, rfl⟩
  rw [g1.1, g1.2] at f1
  rw [(jjRow_keeps m).2] at f2
  exact ⟨m, c2, h1, f1, by rw [e2, f2]⟩

/-- The columns of a row come from its cells. -/
theorem midRow_pct {hl : Bool} {r : RawRow} {m : Mid} (h : midRow hl true r = .ok m) :
    m.pct = (search? rePct (text r.pct)).bind (fun c => c 1) ∧ m.pct2 = (search? rePct (text r.pct)).bind (fun c => c 2) ∧
    m.conf2 = (search? rePct (text r.pct)).bind (fun c => c 3) ∧ m.term2 = (search? rePct (text r.pct)).bind (fun c => c 4) ∧
    m.term2int = if m.term2 = none then m.conf2.map (fun s => (findall 1 reJ s).map fun g => g.headD []) else none := by
  unfold midRow at h
  obtain ⟨a1, h1, h⟩ := bind_ok_inv h
  obtain ⟨a2, h2, h⟩ := bind_ok_inv h
  obtain ⟨a3, h3, h⟩ := bind_ok_inv h
  obtain ⟨a4, h4, h⟩ := bind_ok_inv h
  obtain ⟨a5, h5, h⟩ := bind_ok_inv h
  obtain ⟨a6, h6, h⟩ := bind_ok_inv h
  cases h
  unfold pctOf at h6
  rw [if_pos rfl] at h6
  rw [cell_text h6]
  exact ⟨rfl, rfl, rfl, rfl, rfl⟩

/-- What a cell of leading percentages says: the percentage of the first component; where there is a second one also its percentage, its
configuration and, if given, its term. -/
inductive Leading : Str → Nat → Option (Nat × Str × Option Str) → Prop
  | lone (p) : Leading (natStr p) p none
  | pair (p m d q e c) : Middle m → Word c → Leading (natStr p ++ m ++ ':' :: (sp d ++ natStr q ++ sp (e + 1) ++ c)) p (some (q, c, none))
  | full (p m d q e c f t) : Middle m → Word c → Term2 t →
    Leading (natStr p ++ m ++ ':' :: (sp d ++ natStr q ++ sp (e + 1) ++ (c ++ sp (f + 1) ++ t))) p (some (q, c, some t))

/-- C87 in full: the percentages, the second configuration (completed from the first) and its term are those of the cell. -/
def C87_full : Prop := ∀ (hl : Bool) (r : RawRow) (out : List OutRow) (p : Nat) (x : Option (Nat × Str × Option Str)),
  clean ⟨[r, limitRow], hl, true⟩ = .ok out → ¬IsLimit true r → Leading (text r.pct) p x → ∀ o ∈ out,
    o.pct = p ∧ o.pct2 = x.map (fun y => (y.1 : ℚ)) ∧ reconstituteConf (text r.conf) (x.map fun y => y.2.1) = .ok o.conf2 ∧
    ∀ y t, x = some y → y.2.2 = some t → o.term2 = t

theorem natStr_nocolon (n : Nat) : ':' ∉ natStr n := fun h => absurd (natStr_dig n _ h) (by decide)
theorem sp_nocolon (n : Nat) : ':' ∉ sp n := fun h => absurd (List.eq_of_mem_replicate h) (by decide)

theorem search_pair {p d q e : Nat} {m c : Str} (hm : Middle m) (hc : Word c) :
    search? rePct (natStr p ++ m ++ ':' :: (sp d ++ natStr q ++ sp (e + 1) ++ c)) =
      some (Regex.upd 3 c (Regex.upd 2 (natStr q) (Regex.upd 1 (natStr p) Caps.none))) := by
  have hR : ':' ∉ sp d ++ natStr q ++ sp (e + 1) ++ c := by
    simp only [List.mem_append, not_or]
    exact ⟨⟨⟨sp_nocolon _, natStr_nocolon _⟩, sp_nocolon _⟩, hc.2.2.1⟩
  obtain ⟨x, xs, rfl, hx, -⟩ := hc.head
  exact search_of_match (rePct_run p m _ _ hm hR (tail_run d q e _ _ _ ⟨x, xs, rfl, hx⟩ (conf_plain _ hc _)))

theorem search_full {p d q e f : Nat} {m c t : Str} (hm : Middle m) (hc : Word c) (ht : Term2 t) :
    search? rePct (natStr p ++ m ++ ':' :: (sp d ++ natStr q ++ sp (e + 1) ++ (c ++ sp (f + 1) ++ t))) =
      some (Regex.upd 4 t (Regex.upd 3 c (Regex.upd 2 (natStr q) (Regex.upd 1 (natStr p) Caps.none)))) := by
  have hR : ':' ∉ sp d ++ natStr q ++ sp (e + 1) ++ (c ++ sp (f + 1) ++ t) := by
    simp only [List.mem_append, not_or]
    exact ⟨⟨⟨sp_nocolon _, natStr_nocolon _⟩, sp_nocolon _⟩, ⟨hc.2.2.1, sp_nocolon _⟩, ht.2.2.1⟩
  obtain ⟨x, xs, e', hx, -⟩ := hc.head
  exact search_of_match (rePct_run p m _ _ hm hR (tail_run d q e _ _ _ ⟨x, xs ++ sp (f + 1) ++ t, by rw [e']; simp, hx⟩ (conf_term _ _ _ hc ht _)))

theorem mem_splitJ {o x : OutRow} (h : o ∈ splitJ x) : ∃ j, o = { x with J := j } := by
  unfold splitJ at h
  obtain ⟨j, -, rfl⟩ := List.mem_map.1 h
  exact ⟨j, rfl⟩

theorem toNumeric_natStr (n : Nat) : toNumeric (natStr n) = some (n : ℚ) := by
  unfold toNumeric
  rw [pyFloat_natStr]
  rfl

/-- C87: where the cell gives a second component, its columns are as the cell says. -/
theorem C87_leading_partial (hl : Bool) (r : RawRow) (out : List OutRow) (p : Nat) (q : Nat) (c : Str) (t : Option Str)
    (h : clean ⟨[r, limitRow], hl, true⟩ = .ok out) (hn : ¬IsLimit true r) (hL : Leading (text r.pct) p (some (q, c, t))) (o : OutRow)
    (ho : o ∈ out) : o.pct = p ∧ o.pct2 = some (q : ℚ) ∧ reconstituteConf (text r.conf) (some c) = .ok o.conf2 ∧ ∀ u, t = some u → o.term2 = u := by
  obtain ⟨m, c2, h1, h2, rfl⟩ := alone_out h hn
  obtain ⟨e1, -, -, -⟩ := midRow_text h1
  obtain ⟨k1, k2, k3, k4, k5⟩ := midRow_pct h1
  rw [List.mem_flatMap] at ho
  obtain ⟨x, hx, ho⟩ := ho
  obtain ⟨j, rfl⟩ := mem_splitJ ho
  simp only [Option.mem_toList, Option.map_eq_some_iff] at hx
  obtain ⟨l, hl, rfl⟩ := hx
  have hjj : (jjRow m).pct = m.pct ∧ (jjRow m).pct2 = m.pct2 := by unfold jjRow; split <;> exact ⟨rfl, rfl⟩
  have key : m.pct = some (natStr p) ∧ m.pct2 = some (natStr q) ∧ m.conf2 = some c ∧ m.term2 = t := by
    rw [k1, k2, k3, k4]
    generalize text r.pct = T at hL
    cases hL with
    | pair p m d q e c hm hc => rw [search_pair hm hc]; exact ⟨rfl, rfl, rfl, rfl⟩
    | full p m d q e c f t hm hc ht => rw [search_full hm hc ht]; exact ⟨rfl, rfl, rfl, rfl⟩
  obtain ⟨g1, g2, g3, g4⟩ := key
  refine ⟨?_, ?_, ?_, ?_⟩
  · show ((jjRow m).pct.bind toNumeric).getD 100 = p
    rw [hjj.1, g1]
    show (toNumeric (natStr p)).getD 100 = _
    rw [toNumeric_natStr]
    rfl
  · show (jjRow m).pct2.bind toNumeric = _
    rw [hjj.2, g2]
    exact toNumeric_natStr q
  · rw [← e1, ← g3]
    exact h2
  · rintro u rfl
    show ((jjRow m).term2).getD [] = u
    rw [g4] at k5
    rw [jjRow_limit (by rw [k5]; simp), g4]
    rfl

/-- A value of `J` in a configuration: not empty, without the closing bracket and line ends. -/
def JOk (a : Str) : Prop := a ≠ [] ∧ '>' ∉ a ∧ '\n' ∉ a

theorem match_J {a : Str} (h : JOk a) (t : Str) : match? reJ ('<' :: (a ++ '>' :: t)) = some (Regex.upd 1 a Caps.none, t) := by
  unfold match? reJ
  simp only [rcat]
  refine run_seq_head _ _ _ _ _ _ _ (by rw [run_chr]; rfl) ?_
  refine run_lazy_grp 1 isDot a t '>' _ _ _ h.1 (fun x hx => ?_) h.2.1 ?_ ?_
  · have : x ≠ '\n' := fun e => h.2.2 (e ▸ hx)
    simp [isDot, this]
  · intro x xs c' hx; exact run_chr_ne _ _ _ _ hx
  · rw [run_chr]; rfl

theorem scan_J {u a : Str} (hu : '<' ∉ u) (ha : JOk a) (t : Str) :
    ∃ s, scan reJ (u ++ '<' :: (a ++ '>' :: t)) = (Regex.upd 1 a Caps.none, s) :: scan reJ t := by
  rw [scan_skip_list]
  · refine ⟨_, scan_match _ _ _ _ (match_J ha t) ?_⟩
    simp only [List.length_cons, List.length_append]
    omega
  · intro x y hxy hy
    obtain ⟨z, zs, rfl⟩ := List.exists_cons_of_ne_nil hy
    unfold reJ
    simp only [rcat, List.cons_append]
    refine run_seq_chr_nil _ _ _ _ _ (fun e => hu ?_)
    rw [hxy, e]
    simp

theorem findall_J {u a v b w : Str} (hu : '<' ∉ u) (ha : JOk a) (hv : '<' ∉ v) (hb : JOk b) :
    ∃ l, (findall 1 reJ (u ++ '<' :: (a ++ '>' :: (v ++ '<' :: (b ++ '>' :: w))))).map (fun g => g.headD []) = a :: b :: l := by
  obtain ⟨s1, h1⟩ := scan_J hu ha (v ++ '<' :: (b ++ '>' :: w))
  obtain ⟨s2, h2⟩ := scan_J hv hb w
  have : findall 1 reJ (u ++ '<' :: (a ++ '>' :: (v ++ '<' :: (b ++ '>' :: w)))) =
      (scan reJ (u ++ '<' :: (a ++ '>' :: (v ++ '<' :: (b ++ '>' :: w))))).map (fun m => (List.range 1).map (fun i => (m.1 (i + 1)).getD [])) := rfl
  rw [this, h1, h2]
  exact ⟨_, rfl⟩

/-- C87: a second component without a term, in whose configuration there are two values of `J`, gets the `JJ` term made of the first two. -/
theorem C87_jj (hl : Bool) (r : RawRow) (out : List OutRow) (p : Nat) (q : Nat) (u a v b w : Str)
    (h : clean ⟨[r, limitRow], hl, true⟩ = .ok out) (hn : ¬IsLimit true r) (hu : '<' ∉ u) (ha : JOk a) (hv : '<' ∉ v) (hb : JOk b)
    (hL : Leading (text r.pct) p (some (q, u ++ '<' :: (a ++ '>' :: (v ++ '<' :: (b ++ '>' :: w))), none))) (o : OutRow)
    (ho : o ∈ out) : o.term2 = '(' :: a ++ ',' :: ' ' :: b ++ [')'] := by
  obtain ⟨m, c2, h1, h2, rfl⟩ := alone_out h hn
  obtain ⟨k1, k2, k3, k4, k5⟩ := midRow_pct h1
  rw [List.mem_flatMap] at ho
  obtain ⟨x, hx, ho⟩ := ho
  obtain ⟨j, rfl⟩ := mem_splitJ ho
  simp only [Option.mem_toList, Option.map_eq_some_iff] at hx
  obtain ⟨l, hl, rfl⟩ := hx
  have key : m.conf2 = some (u ++ '<' :: (a ++ '>' :: (v ++ '<' :: (b ++ '>' :: w)))) ∧ m.term2 = none := by
    rw [k3, k4]
    generalize text r.pct = T at hL
    generalize u ++ '<' :: (a ++ '>' :: (v ++ '<' :: (b ++ '>' :: w))) = c at hL
    cases hL with
    | pair p m d q e c hm hc => rw [search_pair hm hc]; exact ⟨rfl, rfl⟩
  obtain ⟨l', hl'⟩ := findall_J (w := w) hu ha hv hb
  rw [key.2, key.1, if_pos rfl, Option.map_some, hl'] at k5
  show ((jjRow m).term2).getD [] = _
  unfold jjRow
  rw [k5]
  simp [jjTerm, Except.toOption]

/-- The hypotheses: the second row of `demoRows` and `jjDemo`. -/
example : Leading (text (mkRow "" "" "" "" "96    :  3  4f13.(2F*).5d.6s    3[1/2]*").pct) 96 (some (3, "4f13.(2F*).5d.6s".toList, some "3[1/2]*".toList)) :=
  Leading.full 96 (sp 4) 2 3 1 "4f13.(2F*).5d.6s".toList 3 "3[1/2]*".toList (.inl ⟨2, rfl⟩) (by decide +kernel)
    ⟨⟨'3', "[1/2]*".toList, rfl, by decide⟩, ⟨'*', "3[1/2]".toList, rfl, by decide⟩, by decide, by decide⟩
example : Leading (text jjDemo.pct) 90 (some (3, "4f13.(2F*".toList ++ '<' :: ("7/2".toList ++ '>' :: (").5d.(2D".toList ++ '<' ::
    ("3/2".toList ++ '>' :: ")".toList))), none)) :=
  Leading.pair 90 (sp 4) 2 3 1 "4f13.(2F*<7/2>).5d.(2D<3/2>)".toList (.inl ⟨2, rfl⟩) (by decide +kernel)
example : Leading (text (mkRow "" "" "" "" "36  (7/2,1)       :    25  (2F*<7/2>).5d.6p.(1P*<1>)").pct) 36
    (some (25, "(2F*<7/2>).5d.6p.(1P*<1>)".toList, none)) :=
  Leading.pair 36 ("  (7/2,1)       ".toList) 4 25 1 "(2F*<7/2>).5d.6p.(1P*<1>)".toList
    (.inr ⟨1, '(', "7/2,1)       ".toList, rfl, by decide, by decide⟩) (by decide +kernel)

/-- A level of which only the first component is given. -/
def loneDemo : RawRow := mkRow "4f14.6p" "2P*" "1/2" "27061.82" "95"

/-- C87 fails: a lone percentage is not read; the level counts as pure. -/
theorem C87_fails : ¬C87_full := by
  intro h
  have := fun o ho => (h true loneDemo (((clean ⟨[loneDemo, limitRow], true, true⟩).toOption).getD []) 95 none (by decide +kernel)
    (by decide +kernel) (.lone 95) o ho).1
  revert this
  decide +kernel

/-! ## C88: missing terms -/

/-- A pattern without groups. -/
def NoGrp : Re → Prop
  | .grp _ _ => False
  | .seq a b => NoGrp a ∧ NoGrp b
  | .alt a b => NoGrp a ∧ NoGrp b
  | .opt a => NoGrp a
  | _ => True

theorem run_caps (r : Re) (hr : NoGrp r) (s t : Str) (c c' : Caps) (h : (c', t) ∈ run r s c) : c' = c := by
  induction r generalizing s t c c' with
  | eps => simp [run] at h; exact h.1
  | cls p =>
    cases s with
    | nil => simp [run] at h
    | cons x xs => simp only [run] at h; split at h <;> simp_all
  | rep l p => simp only [run, List.mem_map] at h; obtain ⟨u, -, h⟩ := h; cases h; rfl
  | eol => simp only [run] at h; split at h <;> simp_all
  | grp n a _ => exact hr.elim
  | seq a b iha ihb =>
    simp only [run, List.mem_flatMap] at h
    obtain ⟨x, hx, h⟩ := h
    rw [ihb hr.2 _ _ _ _ h]
    exact iha hr.1 _ _ _ _ hx
  | alt a b iha ihb =>
    simp only [run, List.mem_append] at h
    rcases h with h | h
    · exact iha hr.1 _ _ _ _ h
    · exact ihb hr.2 _ _ _ _ h
  | opt a iha =>
    simp only [run, List.mem_append, List.mem_singleton] at h
    rcases h with h | h
    · exact iha hr _ _ _ _ h
    · cases h; rfl

theorem mem_seq {a b : Re} {s s1 : Str} {c c1 : Caps} {x : Caps × Str} (h1 : (c1, s1) ∈ run a s c) (h2 : x ∈ run b s1 c1) : x ∈ run (.seq a b) s c := by
  simp only [run, List.mem_flatMap]
  exact ⟨_, h1, h2⟩

theorem mem_rep {l : Bool} {p : Char → Bool} {w t : Str} (hw : ∀ x ∈ w, p x = true) : t ∈ repRun l p (w ++ t) := by
  induction w with
  | nil => cases t with
    | nil => simp [repRun]
    | cons x xs =>
      simp only [List.nil_append, repRun]
      split
      · split <;> simp
      · simp
  | cons x w ih =>
    have := ih (fun y hy => hw y (by simp [hy]))
    simp only [List.cons_append, repRun, hw x (by simp), if_true]
    split <;> simp [this]

theorem mem_run_rep {l : Bool} {p : Char → Bool} {w t : Str} (c : Caps) (hw : ∀ x ∈ w, p x = true) : (c, t) ∈ run (.rep l p) (w ++ t) c := by
  simp only [run, List.mem_map]
  exact ⟨t, mem_rep hw, rfl⟩

theorem mem_run_plus {l : Bool} {p : Char → Bool} {w t : Str} (c : Caps) (hn : w ≠ []) (hw : ∀ x ∈ w, p x = true) :
    (c, t) ∈ run (.seq (.cls p) (.rep l p)) (w ++ t) c := by
  obtain ⟨x, xs, rfl⟩ := List.exists_cons_of_ne_nil hn
  refine mem_seq (c1 := c) (s1 := xs ++ t) ?_ (mem_run_rep c (fun y hy => hw y (by simp [hy])))
  simp [run, hw x (by simp)]

theorem mem_run_chr (x : Char) (t : Str) (c : Caps) : (c, t) ∈ run (chr x) (x :: t) c := by rw [run_chr]; simp

/-- What follows the colon in `reTerm`. -/
def termTail : Re := rcat [spcs, digits, spcs1, plusLazy isDot, .opt (.seq spcs1 (plusLazy isDot)), spcs, .eol]

/-- What follows the term in `reTerm`. -/
def termRest : Re := .seq spcs (.seq anyStar (.seq (chr ' ') (.seq (chr ':') termTail)))

theorem reTerm_eq : reTerm = .seq spcs (.seq digits (.seq spcs1 (.seq (.grp 1 (plus (fun c => c != ' '))) termRest))) := rfl

theorem termTail_mem (d q e : Nat) (s : Str) (hs : s ≠ []) (hn : '\n' ∉ s) (k : Caps) :
    (k, []) ∈ run termTail (sp d ++ (natStr q ++ (sp (e + 1) ++ s))) k := by
  unfold termTail
  simp only [rcat]
  refine mem_seq (mem_run_rep k (sp_spc d)) (mem_seq (mem_run_plus k (natStr_ne q) (natStr_dig q)) (mem_seq (mem_run_plus k (by simp [sp_succ])
    (sp_spc (e + 1))) (mem_seq (c1 := k) (s1 := []) ?_ (mem_seq (c1 := k) (s1 := []) ?_ (mem_seq (c1 := k) (s1 := []) ?_ ?_)))))
  · have := mem_run_plus (l := true) (p := isDot) (w := s) (t := []) k hs (fun x hx => by
      have : x ≠ '\n' := fun e => hn (e ▸ hx)
      simp [isDot, this])
    rwa [List.append_nil] at this
  · simp [run]
  · simp [run, spcs, repRun]
  · simp [run]

theorem termRest_mem (b d q e : Nat) (s : Str) (hs : s ≠ []) (hn : '\n' ∉ s) (k : Caps) :
    (k, []) ∈ run termRest (sp (b + 1) ++ ':' :: (sp d ++ (natStr q ++ (sp (e + 1) ++ s)))) k := by
  have e1 : sp (b + 1) = sp b ++ [' '] := by unfold sp; rw [List.replicate_succ']
  rw [e1, List.append_assoc]
  unfold termRest
  refine mem_seq (mem_run_rep k (sp_spc b)) (mem_seq (c1 := k) (s1 := ' ' :: ':' :: _) ?_ (mem_seq (mem_run_chr ' ' _ k) (mem_seq (mem_run_chr ':' _ k)
    (termTail_mem d q e s hs hn k))))
  exact mem_run_rep (w := []) k (by simp)

theorem termRest_noGrp : NoGrp termRest := by
  simp [termRest, termTail, rcat, NoGrp, spcs, spcs1, digits, anyStar, chr, plus, plusLazy]

/-- The first match of `reTerm` has the word after the first percentage. -/
theorem reTerm_run (p a b d q e : Nat) (t s : Str) (ht : Word t) (hs : s ≠ []) (hn : '\n' ∉ s) :
    ∃ c, search? reTerm (natStr p ++ (sp (a + 1) ++ (t ++ (sp (b + 1) ++ ':' :: (sp d ++ (natStr q ++ (sp (e + 1) ++ s))))))) = some c ∧ c 1 = some t := by
  obtain ⟨x, xs, rfl, hx, -⟩ := ht.head
  set R := sp (b + 1) ++ ':' :: (sp d ++ (natStr q ++ (sp (e + 1) ++ s))) with hR
  have hrest : ∃ u, (run termRest R (Regex.upd 1 (x :: xs) Caps.none)).head? = some (Regex.upd 1 (x :: xs) Caps.none, u) := by
    have h1 := termRest_mem b d q e s hs hn (Regex.upd 1 (x :: xs) Caps.none)
    cases hrun : run termRest R (Regex.upd 1 (x :: xs) Caps.none) with
    | nil => rw [hR] at hrun; rw [hrun] at h1; cases h1
    | cons y ys =>
      have := run_caps termRest termRest_noGrp R y.2 _ y.1 (by rw [hrun]; simp)
      exact ⟨y.2, by rw [List.head?_cons, ← this]⟩
  obtain ⟨u, hu⟩ := hrest
  have hw : ∀ y ∈ x :: xs, (y != ' ') = true := by
    intro y hy
    simp only [bne_iff_ne, ne_eq]
    rintro rfl
    exact ht.2.1 hy
  have hgrp : (run (.seq (.grp 1 (plus (fun c => c != ' '))) termRest) (x :: xs ++ R) Caps.none).head? =
      some (Regex.upd 1 (x :: xs) Caps.none, u) := by
    unfold plus
    rw [List.cons_append, run_grp_plus 1 false _ _ x _ _ (hw x (by simp))]
    refine greedy_stop _ xs R _ _ (fun y hy => hw y (by simp [hy])) ?_ ?_
    · intro y ys e
      rw [hR, sp_succ] at e
      cases e
      rfl
    · have : (x :: (xs ++ R)).take ((x :: (xs ++ R)).length - R.length) = x :: xs := take_len (x :: xs) R
      simp only [this]
      exact hu
  have hm : match? reTerm (natStr p ++ (sp (a + 1) ++ (x :: xs ++ R))) = some (Regex.upd 1 (x :: xs) Caps.none, u) := by
    unfold match?
    rw [reTerm_eq]
    obtain ⟨y, ys, hy, hy1⟩ := natStr_cons p
    refine spcs_skip 0 _ _ _ _ (fun z zs hz => ?_) ?_
    · rw [hy] at hz
      cases hz
      exact dig_ne_spc hy1
    · have hall := natStr_dig p
      have e1 : natStr p ++ (sp (a + 1) ++ (x :: xs ++ R)) = y :: (ys ++ (sp (a + 1) ++ (x :: xs ++ R))) := by rw [hy]; rfl
      show (run (.seq (.seq (.cls isDig) (.rep false isDig)) _) (natStr p ++ (sp (a + 1) ++ (x :: xs ++ R))) Caps.none).head? = _
      rw [e1, run_plus false isDig _ y _ _ hy1]
      refine greedy_stop isDig ys _ _ _ (fun z hz => hall z (by simp [hy, hz])) (fun z zs hz => ?_) ?_
      · rw [sp_succ] at hz
        cases hz
        rfl
      · exact spcs1_skip a _ _ _ _ (fun z zs hz => by cases hz; exact hx) hgrp
  exact ⟨_, search_of_match hm, by simp [Regex.upd]⟩

/-- Where there is no term before the colon, `reTerm` finds nothing. -/
theorem reTerm_none (p a : Nat) (R : Str) (hR : ':' ∉ R) : search? reTerm (natStr p ++ (sp (a + 1) ++ ':' :: R)) = none := by
  have hlang : ∀ pre w t, natStr p ++ (sp (a + 1) ++ ':' :: R) = pre ++ (w ++ t) → ¬Lang reTerm w := by
    intro pre w t e hL
    rw [reTerm_eq] at hL
    obtain ⟨w1, w2, rfl, -, hL⟩ := hL
    obtain ⟨w3, w4, rfl, -, hL⟩ := hL
    obtain ⟨w5, w6, rfl, h5, hL⟩ := hL
    obtain ⟨w7, w8, rfl, h7, hL⟩ := hL
    obtain ⟨w9, w10, rfl, -, hL⟩ := hL
    obtain ⟨w11, w12, rfl, -, hL⟩ := hL
    obtain ⟨w13, w14, rfl, -, hL⟩ := hL
    obtain ⟨w15, w16, rfl, h15, -⟩ := hL
    have c15 : w15 = [':'] := by
      simp only [chr, Lang] at h15
      obtain ⟨z, rfl, hz⟩ := h15
      simpa using hz
    have c7 : ∃ z zs, w7 = z :: zs ∧ z ≠ ' ' := by
      simp only [plus, Lang] at h7
      obtain ⟨u, v, rfl, ⟨z, rfl, hz⟩, -⟩ := h7
      exact ⟨z, v, rfl, by simpa using hz⟩
    have c5 : ∃ zs, w5 = zs ++ [' '] := by
      simp only [spcs1, plus, Lang] at h5
      obtain ⟨u, v, rfl, ⟨z, rfl, hz⟩, hv⟩ := h5
      have hz : z = ' ' := by simpa using hz
      rcases List.eq_nil_or_concat v with rfl | ⟨v', y, rfl⟩
      · exact ⟨[], by rw [hz]; rfl⟩
      · have := hv y (by simp)
        exact ⟨z :: v', by simp at this; simp [this]⟩
    obtain ⟨z, zs, rfl, hz⟩ := c7
    obtain ⟨ys, rfl⟩ := c5
    subst c15
    -- the colon is the only one
    have e2 : (natStr p ++ sp (a + 1)) ++ ':' :: R = (pre ++ w1 ++ w3 ++ ys ++ ' ' :: z :: (zs ++ w9 ++ w11 ++ w13)) ++ ':' :: (w16 ++ t) := by
      simpa [List.append_assoc] using e
    have hno : ':' ∉ natStr p ++ sp (a + 1) := by
      simp only [List.mem_append, not_or]
      exact ⟨natStr_nocolon _, sp_nocolon _⟩
    have hsplit : natStr p ++ sp (a + 1) = pre ++ w1 ++ w3 ++ ys ++ ' ' :: z :: (zs ++ w9 ++ w11 ++ w13) := by
      rcases List.append_eq_append_iff.1 e2 with ⟨l, h1, h2⟩ | ⟨l, h1, h2⟩
      · cases l with
        | nil => simpa using h1.symm
        | cons y l =>
          rw [List.cons_append] at h2
          injection h2 with h2 h3
          exact absurd (by rw [h3]; simp) hR
      · cases l with
        | nil => simpa using h1
        | cons y l =>
          rw [List.cons_append] at h2
          injection h2 with h2 h3
          exact absurd (by rw [h1, ← h2]; simp) hno
    -- after a space there are only spaces
    have hsp : ∀ u v, natStr p ++ sp (a + 1) = u ++ ' ' :: v → ∀ y ∈ v, y = ' ' := by
      intro u v h y hy
      rcases List.append_eq_append_iff.1 h with ⟨l, h1, h2⟩ | ⟨l, h1, h2⟩
      · have : y ∈ sp (a + 1) := by rw [h2]; simp [hy]
        exact List.eq_of_mem_replicate this
      · cases l with
        | nil =>
          have : y ∈ sp (a + 1) := by
            have : ' ' :: v = sp (a + 1) := by simpa using h2
            rw [← this]; simp [hy]
          exact List.eq_of_mem_replicate this
        | cons x l =>
          rw [List.cons_append] at h2
          injection h2 with h2 h3
          have : ' ' ∈ natStr p := by rw [h1, h2]; simp
          exact absurd (natStr_dig p _ this) (by decide)
    exact hz (hsp (pre ++ w1 ++ w3 ++ ys) (z :: (zs ++ w9 ++ w11 ++ w13)) (by simpa using hsplit) z (by simp))
  have gen : ∀ s pre, natStr p ++ (sp (a + 1) ++ ':' :: R) = pre ++ s → search? reTerm s = none := by
    intro s
    induction s with
    | nil =>
      intro pre e
      have : match? reTerm [] = none := by
        unfold match?
        rw [run_nil_of_lang reTerm [] _ (fun w t h => hlang pre w t (by rw [e, h]))]
        rfl
      simp [search?, this]
    | cons x s ih =>
      intro pre e
      have : match? reTerm (x :: s) = none := by
        unfold match?
        rw [run_nil_of_lang reTerm (x :: s) _ (fun w t h => hlang pre w t (by rw [e, h]))]
        rfl
      simp only [search?, this]
      exact ih (pre ++ [x]) (by simp [e])
  exact gen _ [] rfl

/-- C88 in full: a term that is missing, or only marked odd by a star, is the text between the first percentage and the colon. -/
def C88_full : Prop := ∀ (hl : Bool) (r : RawRow) (out : List OutRow) (p a b d q e : Nat) (t s : Str),
  clean ⟨[r, limitRow], hl, true⟩ = .ok out → ¬IsLimit true r → text r.term = [] ∨ text r.term = ['*'] → Term2 t → s ≠ [] → '\n' ∉ s →
  text r.pct = natStr p ++ (sp (a + 1) ++ (t ++ (sp (b + 1) ++ ':' :: (sp d ++ (natStr q ++ (sp (e + 1) ++ s)))))) → ∀ o ∈ out, o.term = t

theorem alone_term {hl : Bool} {r : RawRow} {out : List OutRow} (h : clean ⟨[r, limitRow], hl, true⟩ = .ok out) (hn : ¬IsLimit true r) :
    ∀ o ∈ out, o.term = (termOf (text r.term) (text r.pct)).getD [] := by
  intro o ho
  obtain ⟨m, c2, h1, h2, rfl⟩ := alone_out h hn
  obtain ⟨-, -, -, e4⟩ := midRow_text h1
  rw [List.mem_flatMap] at ho
  obtain ⟨x, hx, ho⟩ := ho
  obtain ⟨j, rfl⟩ := mem_splitJ ho
  simp only [Option.mem_toList, Option.map_eq_some_iff] at hx
  obtain ⟨l, hl, rfl⟩ := hx
  show (jjRow m).term.getD [] = _
  rw [(jjRow_keeps m).1, e4]
  rfl

theorem missing {t : Str} (h : t = [] ∨ t = ['*']) (pct : Str) : termOf t pct = (search? reTerm pct).bind (fun c => c 1) := by
  unfold termOf
  rcases h with rfl | rfl <;> rfl

/-- C88: the missing term is taken from the leading percentages where it is one word. -/
theorem C88_taken_partial (hl : Bool) (r : RawRow) (out : List OutRow) (p a b d q e : Nat) (t s : Str)
    (h : clean ⟨[r, limitRow], hl, true⟩ = .ok out) (hn : ¬IsLimit true r) (hm : text r.term = [] ∨ text r.term = ['*']) (ht : Word t)
    (hs : s ≠ []) (hs' : '\n' ∉ s)
    (hp : text r.pct = natStr p ++ (sp (a + 1) ++ (t ++ (sp (b + 1) ++ ':' :: (sp d ++ (natStr q ++ (sp (e + 1) ++ s))))))) :
    ∀ o ∈ out, o.term = t := by
  intro o ho
  obtain ⟨c, h1, h2⟩ := reTerm_run p a b d q e t s ht hs hs'
  rw [alone_term h hn o ho, missing hm, hp, h1]
  show (c 1).getD [] = t
  rw [h2]
  rfl

/-- C88: where the leading percentages have no term either, the term is empty. -/
theorem C88_none (hl : Bool) (r : RawRow) (out : List OutRow) (p a : Nat) (R : Str) (h : clean ⟨[r, limitRow], hl, true⟩ = .ok out)
    (hn : ¬IsLimit true r) (hm : text r.term = [] ∨ text r.term = ['*']) (hR : ':' ∉ R) (hp : text r.pct = natStr p ++ (sp (a + 1) ++ ':' :: R)) :
    ∀ o ∈ out, o.term = [] := by
  intro o ho
  rw [alone_term h hn o ho, missing hm, hp, reTerm_none p a R hR]
  rfl

theorem match_label_none {s : Str} (h : ' ' ∉ s) : match? reLabel s = none := by
  unfold match?
  rw [run_nil_of_lang reLabel s _ (fun w t e hL => ?_)]
  · rfl
  · simp only [reLabel, chr, Lang] at hL
    obtain ⟨u, v, rfl, -, z, rfl, hz⟩ := hL
    have : z = ' ' := by simpa using hz
    exact h (by rw [e, this]; simp)

theorem sub_plain {s : Str} (h : ' ' ∉ s) (f : Nat) : subF reLabel [] f s = s := by
  induction s generalizing f with
  | nil => cases f <;> simp [subF, match_label_none]
  | cons x xs ih =>
    cases f with
    | zero => rfl
    | succ f =>
      simp only [subF, match_label_none h]
      rw [ih (fun hx => h (by simp [hx])) f]

/-- C88: a term that is given is kept, without the letter NIST puts before it. -/
theorem C88_kept (hl : Bool) (r : RawRow) (out : List OutRow) (t : Str) (h : clean ⟨[r, limitRow], hl, true⟩ = .ok out)
    (hn : ¬IsLimit true r) (ht : ' ' ∉ t) (h0 : t ≠ []) (h1 : t ≠ ['*'])
    (hr : text r.term = t ∨ ∃ x, isLow x = true ∧ text r.term = x :: ' ' :: t) : ∀ o ∈ out, o.term = t := by
  intro o ho
  rw [alone_term h hn o ho]
  have : reSub reLabel [] (text r.term) = t := by
    rcases hr with hr | ⟨x, hx, hr⟩
    · rw [hr]
      exact sub_plain ht _
    · rw [hr]
      have hm : match? reLabel (x :: ' ' :: t) = some (Caps.none, t) := by
        simp [match?, reLabel, run, chr, hx]
      unfold reSub
      rw [show (x :: ' ' :: t).length + 1 = (t.length + 2) + 1 from rfl, subF]
      simp only [hm]
      rw [if_pos (by simp), List.nil_append]
      exact sub_plain ht _
  unfold termOf
  simp only [this]
  rw [if_neg (by simp [h0, h1])]
  rfl

/-- The comments' own examples: a term in the leading percentages, and none. -/
def takenDemo : RawRow := mkRow "4f13.(2F*<7/2>).5d2.(3P)" "*" "5/2" "40000" "35  3[5/2]*       :    30                                 (2F*<7/2>)(3F) 3[3/2]*"
def spacedDemo : RawRow := mkRow "4f13.(2F*<7/2>).5d.6p.(1P*<1>)" "" "5/2" "40000" "36  (7/2, 1)       :    25  (2F*<7/2>).5d.6p.(1P*<1>)"

example : (clean ⟨[takenDemo, limitRow], true, true⟩).map (fun o => o.map fun x => (String.ofList x.term, String.ofList x.term2, x.conf2.map String.ofList)) =
    .ok [("3[5/2]*", "3[3/2]*", some "4f13.(2F*<7/2>).5d2.(3F)")] := by decide +kernel
example : text takenDemo.pct = natStr 35 ++ (sp 2 ++ ("3[5/2]*".toList ++ (sp 7 ++ ':' :: (sp 4 ++ (natStr 30 ++ (sp 33 ++ "(2F*<7/2>)(3F) 3[3/2]*".toList)))))) ∧
    Word "3[5/2]*".toList ∧ ¬IsLimit true takenDemo ∧ text takenDemo.term = ['*'] := by decide +kernel

/-- C88 fails: of a term with a space in it only the first part is taken. -/
theorem C88_fails : ¬C88_full := by
  intro h
  have := h true spacedDemo (((clean ⟨[spacedDemo, limitRow], true, true⟩).toOption).getD []) 36 1 6 4 25 1 "(7/2, 1)".toList
    "(2F*<7/2>).5d.6p.(1P*<1>)".toList (by decide +kernel) (by decide +kernel) (by decide +kernel)
    ⟨⟨'(', "7/2, 1)".toList, rfl, by decide⟩, ⟨')', "(7/2, 1".toList, rfl, by decide⟩, by decide, by decide⟩ (by decide) (by decide) (by decide +kernel)
  revert this
  decide +kernel

/-! ## C89: several values of `J` -/

/-- What may stand between two values of `J`. -/
def Sep (s : Str) : Prop := s = ",".toList ∨ s = ", ".toList ∨ s = " or ".toList ∨ s = " or".toList

/-- Values of `J` one after the other, as NIST writes them. -/
inductive JText : Str → List ℚ → Prop
  | one (q) : IsHalfInt q → JText (numToFrac q) [q]
  | more (q s t qs) : IsHalfInt q → Sep s → JText t qs → JText (numToFrac q ++ (s ++ t)) (q :: qs)

theorem JText.head {s : Str} {qs : List ℚ} (h : JText s qs) : ∃ x xs, s = x :: xs ∧ x ≠ ' ' ∧ x ≠ 'o' := by
  have key : ∀ q, IsHalfInt q → ∀ t, ∃ x xs, numToFrac q ++ t = x :: xs ∧ x ≠ ' ' ∧ x ≠ 'o' := by
    intro q hq t
    obtain ⟨x, xs, e⟩ := List.exists_cons_of_ne_nil (numToFrac_ne hq)
    have := numToFrac_chars hq x (by rw [e]; simp)
    refine ⟨x, xs ++ t, by rw [e]; rfl, ?_, ?_⟩ <;> rintro rfl <;> rcases this with h | h | h <;> revert h <;> decide
  cases h with
  | one q hq => simpa using key q hq []
  | more q s t qs hq hs ht => exact key q hq (s ++ t)

theorem replaceF_skip {u : Str} (hu : ' ' ∉ u) (f : Nat) (t : Str) :
    replaceF " or".toList [','] (u.length + f) (u ++ t) = u ++ replaceF " or".toList [','] f t := by
  induction u with
  | nil => simp
  | cons x u ih =>
    simp only [List.mem_cons, not_or] at hu
    have e : (x :: u).length + f = (u.length + f) + 1 := by simp only [List.length_cons]; omega
    rw [e, List.cons_append, replaceF, if_neg]
    · rw [ih hu.2]; rfl
    · simp [List.isPrefixOf, hu.1]

theorem nospace_frac {q : ℚ} (hq : IsHalfInt q) : ' ' ∉ numToFrac q ∧ ',' ∉ numToFrac q := by
  constructor <;> intro h <;> rcases numToFrac_chars hq _ h with h | h | h <;> revert h <;> decide

theorem pyFloat_space (s : Str) : pyFloat (' ' :: s) = pyFloat s := by
  unfold pyFloat
  have : stripBy isSpc (' ' :: s) = stripBy isSpc s := by
    unfold stripBy
    rw [List.dropWhile_cons, if_pos (by decide)]
  rw [this]

theorem frac_space {s : Str} (hs : s ≠ []) : fracToFloat (.str (' ' :: s)) = fracToFloat (.str s) := by
  obtain ⟨x, xs, rfl⟩ := List.exists_cons_of_ne_nil hs
  by_cases h : '/' ∈ x :: xs
  · obtain ⟨a, b, e, ha⟩ := List.eq_append_cons_of_mem h
    have h1 : splitOn1 '/' (x :: xs) = a :: splitOn1 '/' b := by rw [e]; exact splitOn1_mid _ _ _ ha
    have h2 : splitOn1 '/' (' ' :: x :: xs) = (' ' :: a) :: splitOn1 '/' b := by
      rw [e, ← List.cons_append]
      exact splitOn1_mid _ _ _ (by simp [ha])
    unfold fracToFloat
    simp only [h1, h2, List.mem_cons_of_mem _ h, if_true, if_pos h]
    generalize splitOn1 '/' b = l
    match l with
    | [] => rfl
    | [f2] => simp only [pyFloat_space]
    | _ :: _ :: _ => rfl
  · unfold fracToFloat
    have h' : ¬'/' ∈ ' ' :: x :: xs := by simpa using h
    simp only [if_neg h, if_neg h', pyFloat_space]

/-- The texts that come from the split, each perhaps with a space before it. -/
theorem split_J {s : Str} {qs : List ℚ} (h : JText s qs) (f : Nat) (hf : s.length < f) (b : Bool) :
    List.Forall₂ (fun j q => ∃ k ≤ 1, j = sp k ++ numToFrac q ∧ IsHalfInt q)
      (splitOn1 ',' ((if b then [' '] else []) ++ replaceF " or".toList [','] f s)) qs := by
  induction h generalizing f b with
  | one q hq =>
    obtain ⟨g, rfl⟩ : ∃ g, f = (numToFrac q).length + g := ⟨f - (numToFrac q).length, by omega⟩
    have e1 : replaceF " or".toList [','] ((numToFrac q).length + g) (numToFrac q) = numToFrac q := by
      have := replaceF_skip (nospace_frac hq).1 g []
      rw [List.append_nil] at this
      rw [this]
      cases g <;> simp [replaceF]
    rw [e1]
    cases b with
    | false =>
      simp only [Bool.false_eq_true, if_false, List.nil_append]
      rw [splitOn1_none _ _ (nospace_frac hq).2]
      exact .cons ⟨0, by omega, rfl, hq⟩ .nil
    | true =>
      simp only [if_true]
      rw [splitOn1_none _ _ (by simpa using (nospace_frac hq).2)]
      exact .cons ⟨1, le_rfl, rfl, hq⟩ .nil
  | more q s t qs hq hs ht ih =>
    obtain ⟨x, xs, hx, hx1, hx2⟩ := ht.head
    obtain ⟨g, rfl⟩ : ∃ g, f = (numToFrac q).length + g := ⟨f - (numToFrac q).length, by simp at hf; omega⟩
    rw [replaceF_skip (nospace_frac hq).1]
    have hg : s.length + t.length < g := by simp at hf; omega
    -- what the separator becomes
    have hsep : ∃ b' f', t.length < f' ∧ replaceF " or".toList [','] g (s ++ t) = ',' :: ((if b' = true then [' '] else []) ++ replaceF " or".toList [','] f' t) := by
      rcases hs with rfl | rfl | rfl | rfl
      · obtain ⟨g', rfl⟩ : ∃ g', g = g' + 1 := ⟨g - 1, by omega⟩
        refine ⟨false, g', by simp at hg; omega, ?_⟩
        show replaceF " or".toList [','] (g' + 1) (',' :: t) = _
        rw [replaceF, if_neg (by simp [List.isPrefixOf])]
        rfl
      · obtain ⟨g', rfl⟩ : ∃ g', g = g' + 2 := ⟨g - 2, by simp at hg; omega⟩
        refine ⟨true, g', by simp at hg; omega, ?_⟩
        show replaceF " or".toList [','] (g' + 1 + 1) (',' :: ' ' :: t) = _
        rw [replaceF, if_neg (by simp [List.isPrefixOf]), replaceF, if_neg]
        · rfl
        · rw [hx]; simp [List.isPrefixOf, hx2.symm]
      · obtain ⟨g', rfl⟩ : ∃ g', g = g' + 2 := ⟨g - 2, by simp at hg; omega⟩
        refine ⟨true, g', by simp at hg; omega, ?_⟩
        show replaceF " or".toList [','] (g' + 1 + 1) (' ' :: 'o' :: 'r' :: ' ' :: t) = _
        rw [replaceF, if_pos (by simp [List.isPrefixOf])]
        show [','] ++ replaceF " or".toList [','] (g' + 1) (' ' :: t) = _
        rw [replaceF, if_neg]
        · rfl
        · rw [hx]; simp [List.isPrefixOf, hx2.symm]
      · obtain ⟨g', rfl⟩ : ∃ g', g = g' + 1 := ⟨g - 1, by omega⟩
        refine ⟨false, g', by simp at hg; omega, ?_⟩
        show replaceF " or".toList [','] (g' + 1) (' ' :: 'o' :: 'r' :: t) = _
        rw [replaceF, if_pos (by simp [List.isPrefixOf])]
        rfl
    obtain ⟨b', f', hf', e⟩ := hsep
    rw [e]
    have ih' := ih f' hf' b'
    cases b with
    | false =>
      simp only [Bool.false_eq_true, if_false, List.nil_append]
      rw [splitOn1_mid _ _ _ (nospace_frac hq).2]
      exact .cons ⟨0, by omega, rfl, hq⟩ ih'
    | true =>
      simp only [if_true]
      rw [show [' '] ++ (numToFrac q ++ ',' :: ((if b' = true then [' '] else []) ++ replaceF " or".toList [','] f' t)) =
        (' ' :: numToFrac q) ++ ',' :: ((if b' = true then [' '] else []) ++ replaceF " or".toList [','] f' t) from rfl,
        splitOn1_mid _ _ _ (by simpa using (nospace_frac hq).2)]
      exact .cons ⟨1, le_rfl, rfl, hq⟩ ih'

/-- C89: a row with several values of `J` gives one row for each, in order, and alike in everything else. -/
theorem C89_each (hl hp : Bool) (r : RawRow) (out : List OutRow) (qs : List ℚ) (x : ℚ) (h : clean ⟨[r, limitRow], hl, hp⟩ = .ok out)
    (hn : ¬IsLimit hp r) (hx : toNumeric (text r.level) = some x) (hJ : JText (text r.J) qs) :
    out.map (fun o => fracToFloat (.str o.J)) = qs.map (fun q => .ok (some q)) ∧
    ∀ o ∈ out, ∀ o' ∈ out, { o with J := o'.J } = o' := by
  obtain ⟨m, c2, h1, h2, rfl⟩ := alone_out h hn
  obtain ⟨-, e2, e3, -⟩ := midRow_text h1
  rw [hx] at e3
  have hjJ : (jjRow m).J = m.J := by unfold jjRow; split <;> rfl
  have hout : ((m.level.map (mkOut (jjRow m) c2)).toList).flatMap splitJ = splitJ (mkOut (jjRow m) c2 x) := by
    rw [e3]
    simp
  rw [hout]
  constructor
  · have := split_J hJ (m.J.length + 1) (by rw [← e2]; omega) false
    simp only [Bool.false_eq_true, if_false, List.nil_append] at this
    unfold splitJ pyReplace
    rw [List.map_map]
    have hJ' : (mkOut (jjRow m) c2 x).J = text r.J := hjJ.trans e2
    rw [hJ', ← e2]
    rw [← e2] at this
    clear hJ
    generalize splitOn1 ',' (replaceF " or".toList [','] (m.J.length + 1) m.J) = l at this
    induction this with
    | nil => rfl
    | cons a1 a2 ih =>
      rw [List.map_cons, List.map_cons, ih]
      congr 1
      obtain ⟨k, hk, rfl, hq⟩ := a1
      show fracToFloat (.str (sp k ++ _)) = _
      rcases (by omega : k = 0 ∨ k = 1) with rfl | rfl
      · exact frac_roundtrip hq
      · rw [show sp 1 ++ numToFrac _ = ' ' :: numToFrac _ from rfl, frac_space (numToFrac_ne hq)]
        exact frac_roundtrip hq
  · intro o ho o' ho'
    obtain ⟨j, rfl⟩ := mem_splitJ ho
    obtain ⟨j', rfl⟩ := mem_splitJ ho'
    rfl

/-- A level whose `J` is not certain. -/
def orDemo : RawRow := mkRow "4f14.10d" "2D" "3/2 or 5/2" "90000" ""

theorem orText : JText (text orDemo.J) [3/2, 5/2] := by
  have e : text orDemo.J = numToFrac (3/2) ++ (" or ".toList ++ numToFrac (5/2)) := by decide +kernel
  rw [e]
  exact .more _ _ _ _ ⟨3, by norm_num⟩ (by simp [Sep]) (.one _ ⟨5, by norm_num⟩)

example : ∃ out, clean ⟨[orDemo, limitRow], true, true⟩ = .ok out ∧ ¬IsLimit true orDemo ∧ JText (text orDemo.J) [3/2, 5/2] ∧
    out.map (fun o => fracToFloat (.str o.J)) = [.ok (some (3/2)), .ok (some (5/2))] := by
  obtain ⟨out, h⟩ : ∃ out, clean ⟨[orDemo, limitRow], true, true⟩ = .ok out := by
    cases h : clean ⟨[orDemo, limitRow], true, true⟩ with
    | ok out => exact ⟨out, rfl⟩
    | error e =>
      have : (clean ⟨[orDemo, limitRow], true, true⟩).isOk = true := by decide +kernel
      rw [h] at this
      cases this
  have hn : ¬IsLimit true orDemo := by decide +kernel
  exact ⟨out, h, hn, orText, (C89_each true true orDemo out _ 90000 h hn (by decide +kernel) orText).1⟩


end AtomTk.Nist
