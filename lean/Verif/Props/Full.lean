import Verif.Model.Load
import Verif.Props.Table
import Verif.Props.IO
import Verif.Props.Derived

/-! # Atoms with everything, from tables: C115 -/

namespace AtomTk
open World Util

/-- A level table that can be read: the terms of its rows, all with a J, under different names without `F=`, `mF=`, `mJ=`. -/
structure Readable (rows : List Row) (ts : List Term) : Prop where
  terms : rows.map Row.term = ts.map .ok
  distinct : (ts.map Term.name).Nodup
  plain : ∀ t ∈ ts, plainKey t.name = true
  hasJ : ∀ t ∈ ts, t.J ≠ none

/-- A row that ends the reading of a hyperfine file with this exception. -/
def Ends (q : QText) (row : List Str) (e : PyErr) : Prop :=
  (row.length ≠ 4 ∧ e = .ValueError) ∨ ∃ n a b c, row = [n, a, b, c] ∧ q.parse a = .error e ∧ e ≠ .KeyError

/-- What a hyperfine file says: nothing if there is none or it cannot be opened, otherwise its rows as numbers, up to the first that
ends the reading with a `TypeError`. -/
def HfSays (q : QText) : HfArg → List HfVals → Prop
  | .absent, vs => vs = []
  | .unreadable, vs => vs = []
  | .file text, vs => ∃ rows, (text = Csv.write rows ∨ ∃ bad post, text = Csv.write (rows ++ bad :: post) ∧ Ends q bad .TypeError) ∧
      List.Forall₂ (Reads q) rows vs ∧ ∀ v ∈ vs, plainKey v.name = true

theorem Readable.length {rows : List Row} {ts : List Term} (h : Readable rows ts) : ts.length = rows.length := by
  have := congrArg List.length h.terms
  simpa using this.symm

theorem Readable.row {rows : List Row} {ts : List Term} (h : Readable rows ts) (i : Nat) (r : Row) (t : Term) (h1 : rows[i]? = some r)
    (h2 : ts[i]? = some t) : r.term = .ok t := by
  have := congrArg (·[i]?) h.terms
  simp only [List.getElem?_map, h1, h2, Option.map_some, Option.some.injEq] at this
  exact this

theorem Readable.load {rows : List Row} {ts : List Term} (h : Readable rows ts) (I B : ℚ) (num : Option Nat) :
    ∃ w, fromDataframe (tableOf rows) I B num = (w, .ok ()) ∧ Upto rows ts (min (num.getD rows.length) rows.length) w := by
  obtain ⟨w, h1, h2⟩ := addRows_upto rows ts h.length h.distinct h.row I B (num.getD rows.length)
  exact ⟨w, by unfold fromDataframe; rw [tableOf_length]; exact h1, h2⟩

/-- The level registered under a name, after loading. -/
theorem Upto.level {rows : List Row} {ts : List Term} (h : Readable rows ts) {m : Nat} {w : World} (hm : m ≤ rows.length)
    (hu : Upto rows ts m w) {n : Str} {i : Nat} (hl : w.g.lev n = some i) :
    ∃ r t, i < m ∧ rows[i]? = some r ∧ ts[i]? = some t ∧ n = t.name ∧ w.lv i = loaded r t := by
  obtain ⟨h1, _, h3⟩ := hu.reach.wf.node n i hl
  have hi : i < m := by rw [← hu.nlv]; exact h3
  have hr : i < rows.length := lt_of_lt_of_le hi hm
  have ht : i < ts.length := by rw [h.length]; exact hr
  obtain ⟨h4, _⟩ := hu.lv i rows[i] ts[i] hi (List.getElem?_eq_getElem hr) (List.getElem?_eq_getElem ht)
  refine ⟨_, _, hi, List.getElem?_eq_getElem hr, List.getElem?_eq_getElem ht, ?_, h4⟩
  rw [← h1]
  unfold lname
  rw [h4]
  rfl

theorem afterRows_nil (w : World) : afterRows w [] = w := rfl

theorem afterRows_reach {w : World} (hr : Reachable w) (vs : List HfVals) : Reachable (afterRows w vs) := by
  induction vs generalizing w with
  | nil => exact hr
  | cons v vs ih =>
    rw [← afterRows_cons]
    refine ih ?_
    unfold rowEffect
    split
    · rename_i i _
      have := Reachable.step (.setConsts i (w.lv i).lande v.a v.b v.c) hr trivial
      exact this
    · exact hr

theorem hfArg_ok {q : QText} {hf : HfArg} {vs : List HfVals} {w : World} (hr : Reachable w) (h : HfSays q hf vs) :
    applyHfArg q hf w = (afterRows w vs, .ok ()) := by
  cases hf with
  | absent => cases h; rfl
  | unreadable => cases h; rfl
  | file text =>
    obtain ⟨rows, h0, h1, h2⟩ := h
    rcases h0 with rfl | ⟨bad, post, rfl, hb⟩
    · have := C60_text_partial hr h1 (fun v hv => .inl (h2 v hv))
      show catchType (applyHf q (Csv.write rows)) w = _
      unfold catchType
      rw [this]
    · have := C60_file_partial hr h1 (fun v hv => .inl (h2 v hv))
      show catchType (applyHf q (Csv.write (rows ++ bad :: post))) w = _
      unfold catchType applyHf
      rw [Csv.read_write, C60_which (by rw [this]) hb, this]

/-- The rows of a hyperfine file about a name, the last of them. -/
def lastNamed (n : Str) (vs : List HfVals) : Option HfVals := (vs.filter fun v => decide (v.name = n)).getLast?

theorem lastFor_named {rows : List Row} {ts : List Term} {m : Nat} {w : World} (hu : Upto rows ts m w) {n : Str} {i : Nat}
    (hl : w.g.lev n = some i) (vs : List HfVals) : lastFor w i vs = lastNamed n vs := by
  unfold lastFor lastNamed
  congr 2
  funext v
  have : whom w v.name = w.g.lev v.name := by
    unfold whom
    rw [hu.lalias]
    rfl
  rw [this]
  refine decide_eq_decide.2 ⟨fun h => ?_, fun h => by rw [h]; exact hl⟩
  rw [← (hu.reach.wf.node _ _ h).1, (hu.reach.wf.node _ _ hl).1]

/-- The full claim about the plainest call, with nothing but a table: it returns an atom with the levels of the table and a
transition from each level to itself. -/
def C115_full : Prop := ∀ σ q rows ts I B, Shuffles σ → Readable rows ts →
  ∃ w, generateFull σ q (tableOf rows) I B none .absent .absent = (w, .ok ()) ∧ w.levelNames = ts.map Term.name ∧
    ∀ n ∈ w.levelNames, ∃ t, w.g.adj n n = some t

/-- C115 with a table of transitions: the atom has the levels of the first rows of the level table, in order, with their terms,
Lande factors and, unless the transitions have frequencies, energies; the hyperfine constants of the last row of the
hyperfine file with their name, or zero; between two levels the transition of the last row about them, or none; and a
transition from each level to itself. -/
theorem C115_table_partial (σ : Ord') (hσ : Shuffles σ) (q : QText) (rows : List Row) (ts : List Term) (hrd : Readable rows ts)
    (I B : ℚ) (num : Option Nat) (hf : HfArg) (vs : List HfVals) (hhf : HfSays q hf vs) (trs : List TRow)
    (htr : ∀ r ∈ trs, (∃ a b, r.names a b ∧ plainKey a = true ∧ plainKey b = true) ∧ ∀ e, r.A ≠ .bad e) :
    ∃ w, generateFull σ q (tableOf rows) I B num hf (.df trs) = (w, .ok ()) ∧
      w.levelNames = (ts.take (num.getD rows.length)).map Term.name ∧
      (∀ (i : Nat) r t, i < num.getD rows.length → rows[i]? = some r → ts[i]? = some t → ∃ k, w.g.lev t.name = some k ∧
        (w.lv k).term = t ∧ (w.lv k).lande = r.lande ∧ ((∀ r ∈ trs, r.freq = none) → w.eHz k = r.level) ∧
        (∀ v, lastNamed t.name vs = some v → (w.lv k).hfA = v.a ∧ (w.lv k).hfB = v.b ∧ (w.lv k).hfC = v.c) ∧
        (lastNamed t.name vs = none → (w.lv k).hfA = 0 ∧ (w.lv k).hfB = 0 ∧ (w.lv k).hfC = 0)) ∧
      (∀ a ∈ w.levelNames, ∀ b ∈ w.levelNames, a ≠ b →
        (∀ r, LastAbout trs a b r → ∃ t i j, w.g.lev a = some i ∧ w.g.lev b = some j ∧ w.g.adj a b = some t ∧
          (w.tr t).A = r.A.rate ∧ (w.tr t).setFreq = r.freq ∧
          (((w.tr t).e1 = i ∧ (w.tr t).e2 = j) ∨ ((w.tr t).e1 = j ∧ (w.tr t).e2 = i))) ∧
        ((∀ r ∈ trs, ¬r.about a b) → w.g.adj a b = none)) ∧
      ∀ n ∈ w.levelNames, ∃ t i, w.g.lev n = some i ∧ w.g.adj n n = some t ∧ (w.tr t).e1 = i ∧ (w.tr t).e2 = i := by
  obtain ⟨w0, e0, hu⟩ := hrd.load I B num
  set m := min (num.getD rows.length) rows.length with hm
  have hml : m ≤ rows.length := min_le_right _ _
  have e1 := hfArg_ok hu.reach hhf
  have r1 := afterRows_reach hu.reach vs
  set w1 := afterRows w0 vs with hw1
  have g1 : w1.g = w0.g := rfl
  have l1 : ∀ i, w1.lv i = withVals (w0.lv i) (lastFor w0 i vs) := fun i => rfl
  have t1 : ∀ i, (w1.lv i).term = (w0.lv i).term := by
    intro i
    rw [l1]
    cases lastFor w0 i vs <;> rfl
  have J1 : ∀ n i, w1.g.lev n = some i → (w1.lv i).term.J ≠ none := by
    intro n i h
    obtain ⟨r, t, _, _, ht, _, he⟩ := hu.level hrd hml (show w0.g.lev n = some i from h)
    rw [t1, he]
    exact hrd.hasJ t (List.mem_of_getElem? ht)
  have pl : ∀ a, plainKey a = true → Plain w1 a := fun a ha => ⟨ha, by
    show w0.lalias.get? a = none
    rw [hu.lalias]; rfl⟩
  obtain ⟨w2, e2, f2, n2, h2⟩ := populateDf_rows σ hσ trs w1 r1 (fun r hr => by
    obtain ⟨⟨a, b, h3, h4, h5⟩, h6⟩ := htr r hr
    exact ⟨⟨a, b, h3, pl a h4, pl b h5⟩, h6⟩) J1
  obtain ⟨w3, e3, _, nm3, E3, l3, lev3, old3, self3, adj3, _⟩ := C49_partial w2 f2.reach (fun n i h => by
    rw [f2.lev] at h
    rw [f2.term]
    exact Option.ne_none_iff_exists'.1 (J1 n i h))
  have levs : ∀ n, w3.g.lev n = w0.g.lev n := fun n => (lev3 n).trans ((f2.lev n).trans (by rw [g1]))
  have nms : w3.levelNames = (ts.take (num.getD rows.length)).map Term.name := by
    rw [nm3, f2.reach.names, f2.keys, g1, hu.keys, hm]
    congr 1
    rcases le_total (num.getD rows.length) rows.length with h | h
    · rw [min_eq_left h]
    · rw [min_eq_right h, List.take_of_length_le (by rw [hrd.length]), List.take_of_length_le (by rw [hrd.length]; exact h)]
  have isLev : ∀ n ∈ w3.levelNames, ∃ i, w0.g.lev n = some i := by
    intro n hn
    rw [nm3] at hn
    obtain ⟨_, i, h, _⟩ := self3 n hn
    exact ⟨i, by rw [f2.lev, g1] at h; exact h⟩
  have noadj : ∀ a b, w1.g.adj a b = none := by
    intro a b
    cases h : w1.g.adj a b with
    | none => rfl
    | some t =>
      have := (hu.reach.wf.edge a b t (by rw [← g1]; exact h)).1
      rw [hu.ntr] at this
      omega
  refine ⟨w3, ?_, nms, ?_, ?_, ?_⟩
  · unfold generateFull
    rw [e0]
    show fullSteps σ q hf (.df trs) w0 = _
    unfold fullSteps
    rw [PyM.bind_ok e1, PyM.bind_ok (show transStep σ (.df trs) w1 = (w2, .ok ()) from e2), e3]
  · intro i r t hi hr ht
    have hi' : i < m := lt_min hi (List.getElem?_eq_some_iff.1 hr).1
    obtain ⟨h3, h4⟩ := hu.lv i r t hi' hr ht
    obtain ⟨E, b, h5⟩ := f2.lv i
    have hlast := lastFor_named hu h4 vs
    refine ⟨i, (levs _).trans h4, ?_, ?_, ?_, ?_, ?_⟩
    · rw [l3, f2.term, t1, h3]; rfl
    · rw [l3, h5, l1, h3]
      cases lastFor w0 i vs <;> rfl
    · intro hno
      unfold eHz
      rw [l3, n2 hno, l1, h3]
      cases lastFor w0 i vs <;> rfl
    · intro v hv
      rw [l3, h5, l1, hlast, hv]
      exact ⟨rfl, rfl, rfl⟩
    · intro hv
      rw [l3, h5, l1, hlast, hv, h3]
      exact ⟨rfl, rfl, rfl⟩
  · intro a ha b hb hab
    obtain ⟨i, hi⟩ := isLev a ha
    obtain ⟨j, hj⟩ := isLev b hb
    obtain ⟨h3, h4⟩ := h2 a b i j (by rw [g1]; exact hi) (by rw [g1]; exact hj)
    rw [adj3 a b hab]
    constructor
    · intro r hr
      obtain ⟨t, k1, k2, k3, k4⟩ := h3 r hr
      have := old3 t (f2.reach.wf.edge a b t k1).1
      exact ⟨t, i, j, (levs a).trans hi, (levs b).trans hj, k1, by rw [this]; exact k2, by rw [this]; exact k3, by rw [this]; exact k4⟩
    · intro hno
      rw [(h4 hno).1, noadj]
  · intro n hn
    rw [nm3] at hn
    obtain ⟨t, i, h3, _, h4, h5, h6⟩ := self3 n hn
    exact ⟨t, i, (lev3 n).trans h3, h4, h5, h6⟩

theorem checkPairs_none {w : World} (hr : Reachable w) (hno : ∀ a b, w.g.adj a b = none) (l : List (Nat × Nat)) (hl : l ≠ [])
    (hreg : ∀ p ∈ l, (w.Registered p.1 ∧ w.Registered p.2) ∧ Plain w (w.lname p.1) ∧ Plain w (w.lname p.2)) :
    checkPairs l w = (w, .error .KeyError) := by
  cases l with
  | nil => exact absurd rfl hl
  | cons p l =>
    obtain ⟨a, b⟩ := p
    obtain ⟨⟨h1, h2⟩, h3, h4⟩ := hreg (a, b) (by simp)
    unfold checkPairs
    have hg := hr.wf.gok.nodup
    have : transGet (w.lname a) (w.lname b) w = (w, .error .KeyError) := by
      rw [transGet_plainKey h3.1 h4.1, levelsGet_plain hg h3 h1, levelsGet_plain hg h4 h2]
      simp only [bind, Except.bind, refHz]
      have e : ∀ u v, w.g.edges.getE (u, v) = .error .KeyError := by
        intro u v
        refine Dict.getE_err ?_
        rw [Graph.get?_edges hr.wf.gok, hno]
        simp
      split <;> rw [e]
    rw [PyM.bind_err this]

/-- C115: without a table of transitions, any readable table with a level of J at most 20 makes the call raise `KeyError`: no two
levels are connected yet, and the lookup of a missing transition raises. -/
theorem C115_raises (σ : Ord') (q : QText) (rows : List Row) (ts : List Term) (hrd : Readable rows ts) (I B : ℚ) (num : Option Nat)
    (hf : HfArg) (vs : List HfVals) (hhf : HfSays q hf vs) (tr : TransArg) (htr : tr = .noDf ∨ tr = .absent)
    (hJ : ∃ (i n : Nat) (t : Term), i < num.getD rows.length ∧ ts[i]? = some t ∧ n ≤ 40 ∧ t.J = some ((n : ℚ) / 2)) :
    (generateFull σ q (tableOf rows) I B num hf tr).2 = .error .KeyError := by
  obtain ⟨w0, e0, hu⟩ := hrd.load I B num
  set m := min (num.getD rows.length) rows.length with hm
  have hml : m ≤ rows.length := min_le_right _ _
  have e1 := hfArg_ok hu.reach hhf
  have r1 := afterRows_reach hu.reach vs
  set w1 := afterRows w0 vs with hw1
  have g1 : w1.g = w0.g := rfl
  have t1 : ∀ i, (w1.lv i).term = (w0.lv i).term := by
    intro i
    show (withVals (w0.lv i) (lastFor w0 i vs)).term = _
    cases lastFor w0 i vs <;> rfl
  have noadj : ∀ a b, w1.g.adj a b = none := by
    intro a b
    cases h : w1.g.adj a b with
    | none => rfl
    | some t =>
      have := (hu.reach.wf.edge a b t (by rw [← g1]; exact h)).1
      rw [hu.ntr] at this
      omega
  have hn := r1.wf.gok.nodup
  have hreg : ∀ k ∈ w1.g.levelAttrs.vals, w1.Registered k := by
    intro k hk
    obtain ⟨p, hp, rfl⟩ := List.mem_map.1 hk
    have h1 : w1.g.levelAttrs.get? p.1 = some p.2 :=
      Dict.get?_of_mem (by rw [Graph.keys_levelAttrs _ hn]; exact hn.filter _) hp
    rw [Graph.get?_levelAttrs _ hn] at h1
    show w1.g.lev (w1.lname p.2) = some p.2
    rw [(r1.wf.node _ _ h1).1, h1]
  have hplain : ∀ k, w1.Registered k → Plain w1 (w1.lname k) := by
    intro k hk
    obtain ⟨r, t, _, _, ht, hnm, _⟩ := hu.level hrd hml (show w0.g.lev (w1.lname k) = some k from hk)
    refine ⟨?_, ?_⟩
    · rw [hnm]
      exact hrd.plain t (List.mem_of_getElem? ht)
    · show w0.lalias.get? _ = none
      rw [hu.lalias]
      rfl
  obtain ⟨i, n, t, hi, ht, hn40, hJt⟩ := hJ
  have hir : i < rows.length := by
    rw [← hrd.length]
    exact (List.getElem?_eq_some_iff.1 ht).1
  obtain ⟨h3, h4⟩ := hu.lv i rows[i] t (lt_min hi hir) (List.getElem?_eq_getElem hir) ht
  have hmem : i ∈ w1.withJ ((n : ℚ) / 2) := by
    unfold withJ
    refine List.mem_filter.2 ⟨List.mem_map.2 ⟨(t.name, i), Dict.mem_of_get? ((Graph.get?_levelAttrs _ hn _).trans h4), rfl⟩, ?_⟩
    rw [t1, h3]
    simp [loaded, hJt]
  have hgrid : ((n : ℚ) / 2) ∈ jGrid.take 41 := by
    have : ∀ n ∈ List.range 41, ((n : ℚ) / 2) ∈ jGrid.take 41 := by decide +kernel
    exact this n (List.mem_range.2 (by omega))
  have key : ∀ e1 m1 e2 : Bool, (e1 = true ∨ m1 = true) → populateTransitions [e1, m1, e2] w1 = (w1, .error .KeyError) := by
    intro x1 x2 x3 hx
    obtain ⟨ds, hds, hmemds⟩ := allowedDeltas_three x1 x2 x3
    unfold populateTransitions
    simp only [List.length_cons, List.length_nil, hds]
    refine checkPairs_none r1 noadj _ ?_ ?_
    · have : (i, i) ∈ ds.flatMap w1.levelPairs := by
        rw [List.mem_flatMap]
        refine ⟨0, (hmemds 0).2 (.inl ⟨.inl rfl, hx⟩), ?_⟩
        unfold levelPairs product
        rw [List.mem_flatMap]
        refine ⟨(n : ℚ) / 2, by
          have e : jGrid.length = 42 := by decide +kernel
          rw [e]; exact hgrid, ?_⟩
        rw [List.mem_flatMap]
        refine ⟨i, hmem, List.mem_map.2 ⟨i, ?_, rfl⟩⟩
        simpa using hmem
      intro h
      rw [h] at this
      simp at this
    · rintro ⟨a, b⟩ hp
      obtain ⟨δ, _, hp⟩ := List.mem_flatMap.1 hp
      unfold levelPairs product withJ at hp
      simp only [List.mem_flatMap, List.mem_map, List.mem_filter] at hp
      obtain ⟨j, _, x, ⟨hx, _⟩, y, ⟨hy, _⟩, he⟩ := hp
      obtain ⟨rfl, rfl⟩ := Prod.mk.inj he
      exact ⟨⟨hreg _ hx, hreg _ hy⟩, hplain _ (hreg _ hx), hplain _ (hreg _ hy)⟩
  have hstep : transStep σ tr w1 = (w1, .error .KeyError) := by
    rcases htr with rfl | rfl
    · exact key true true true (.inl rfl)
    · exact key true false false (.inl rfl)
  unfold generateFull
  rw [e0]
  show (fullSteps σ q hf tr w0).2 = _
  unfold fullSteps
  rw [PyM.bind_ok e1, PyM.bind_err hstep]

/-- C115: a file of transitions is not supported. -/
theorem C115_csv (σ : Ord') (q : QText) (rows : List Row) (ts : List Term) (hrd : Readable rows ts) (I B : ℚ) (num : Option Nat)
    (hf : HfArg) (vs : List HfVals) (hhf : HfSays q hf vs) :
    (generateFull σ q (tableOf rows) I B num hf .csv).2 = .error .NotImplementedError := by
  obtain ⟨w0, e0, hu⟩ := hrd.load I B num
  unfold generateFull
  rw [e0]
  show (fullSteps σ q hf .csv w0).2 = _
  unfold fullSteps
  rw [PyM.bind_ok (hfArg_ok hu.reach hhf), PyM.bind_err (show transStep σ .csv _ = (_, .error .NotImplementedError) from rfl)]

/-- C115: a row of the hyperfine file that cannot be read ends the call with its exception, unless that is a `TypeError`; the atom has
its levels and the constants of the rows before, and no transition. -/
theorem C115_hf_abort (σ : Ord') (q : QText) (rows : List Row) (ts : List Term) (hrd : Readable rows ts) (I B : ℚ) (num : Option Nat)
    (tr : TransArg) {pre post : List (List Str)} {bad : List Str} {vs : List HfVals} {e : PyErr} (hv : List.Forall₂ (Reads q) pre vs)
    (hs : ∀ v ∈ vs, plainKey v.name = true) (hb : Ends q bad e) (he : e ≠ .TypeError) :
    ∃ w, generateFull σ q (tableOf rows) I B num (.file (Csv.write (pre ++ bad :: post))) tr = (w, .error e) ∧
      w.levelNames = (ts.take (num.getD rows.length)).map Term.name ∧ w.ntr = 0 ∧
      ∀ t ∈ ts.take (num.getD rows.length), ∃ k, w.g.lev t.name = some k ∧
        (∀ v, lastNamed t.name vs = some v → (w.lv k).hfA = v.a ∧ (w.lv k).hfB = v.b ∧ (w.lv k).hfC = v.c) := by
  obtain ⟨w0, e0, hu⟩ := hrd.load I B num
  have e1 := C60_file_partial hu.reach hv (fun v h => .inl (hs v h))
  have e2 : applyHfArg q (.file (Csv.write (pre ++ bad :: post))) w0 = (afterRows w0 vs, .error e) := by
    show catchType (applyHf q (Csv.write (pre ++ bad :: post))) w0 = _
    unfold catchType applyHf
    rw [Csv.read_write, C60_which (by rw [e1]) hb, e1]
    cases e <;> first | rfl | exact absurd rfl he
  have htake : ts.take (min (num.getD rows.length) rows.length) = ts.take (num.getD rows.length) := by
    rcases le_total (num.getD rows.length) rows.length with h | h
    · rw [min_eq_left h]
    · rw [min_eq_right h, List.take_of_length_le (by rw [hrd.length]), List.take_of_length_le (by rw [hrd.length]; exact h)]
  refine ⟨afterRows w0 vs, ?_, ?_, hu.ntr, ?_⟩
  · unfold generateFull
    rw [e0]
    show fullSteps σ q _ tr w0 = _
    unfold fullSteps
    rw [PyM.bind_err e2]
  · rw [(afterRows_reach hu.reach vs).names]
    show w0.g.keys = _
    rw [hu.keys, htake]
  · intro t ht
    rw [← htake] at ht
    obtain ⟨i, hi, rfl⟩ := List.mem_iff_getElem.1 ht
    rw [List.length_take, hrd.length] at hi
    have hi1 : i < min (num.getD rows.length) rows.length := lt_of_lt_of_le hi (min_le_left _ _)
    have hi2 : i < rows.length := lt_of_lt_of_le hi1 (min_le_right _ _)
    have hi3 : i < ts.length := by rw [hrd.length]; exact hi2
    rw [List.getElem_take]
    obtain ⟨-, h4⟩ := hu.lv i rows[i] ts[i] hi1 (List.getElem?_eq_getElem hi2) (List.getElem?_eq_getElem hi3)
    refine ⟨i, h4, fun v hv => ?_⟩
    have : (afterRows w0 vs).lv i = withVals (w0.lv i) (some v) := by
      show withVals (w0.lv i) (lastFor w0 i vs) = _
      rw [lastFor_named hu h4 vs, hv]
    rw [this]
    exact ⟨rfl, rfl, rfl⟩

/-- C115: a level table with a row that cannot be read gives the exception of that row, and nothing more is done. -/
theorem C115_abort (σ : Ord') (q : QText) (rows : List Row) (ts : List Term) (bad : Row) (rest : List Row) (e : PyErr)
    (hts : rows.map Row.term = ts.map .ok) (hd : (ts.map Term.name).Nodup) (hbad : bad.term = .error e) (hne : e ≠ .KeyError)
    (I B : ℚ) (hf : HfArg) (tr : TransArg) :
    ∃ w, generateFull σ q (tableOf (rows ++ bad :: rest)) I B none hf tr = (w, .error e) ∧ w.levelNames = ts.map Term.name := by
  obtain ⟨w, h1, h2⟩ := C50_abort rows ts bad rest e hts hd hbad hne I B
  refine ⟨w, ?_, h2⟩
  unfold generateFull
  rw [h1]

theorem demo_readable : Readable [demoRow 'g' 0, demoRow 'a' 7] [demoTerm 'g', demoTerm 'a'] := 
  ⟨by decide +kernel, by decide +kernel, by decide +kernel, by decide +kernel⟩

/-- A hyperfine file about one of the levels, and a transition table about both. -/
example : HfSays demoQ (.file (Csv.write [[demoName 'g', ['1'], ['2'], ['0']]])) [⟨demoName 'g', 1, 2, 0⟩] ∧
    (∀ r ∈ demoTable, (∃ a b, r.names a b ∧ plainKey a = true ∧ plainKey b = true) ∧ ∀ e, r.A ≠ .bad e) ∧
    (let r := generateFull idOrd demoQ (tableOf [demoRow 'g' 0, demoRow 'a' 7]) (1/2) 0 none
      (.file (Csv.write [[demoName 'g', ['1'], ['2'], ['0']]])) (.df demoTable)
     r.2 = .ok () ∧ r.1.levelNames = [demoName 'g', demoName 'a'] ∧ (r.1.lv 0).hfA = 1 ∧ (r.1.lv 0).hfB = 2 ∧ (r.1.lv 1).hfA = 0 ∧
     r.1.eHz 1 = 5 ∧ r.1.g.adj (demoName 'a') (demoName 'a') ≠ none) := by
  refine ⟨⟨_, .inl rfl, .cons ⟨_, _, _, rfl, by decide +kernel, by decide +kernel, by decide +kernel⟩ .nil, by decide +kernel⟩, ?_, by decide +kernel⟩
  intro r hr
  simp only [demoTable, List.mem_cons, List.not_mem_nil, or_false] at hr
  rcases hr with rfl | rfl | rfl
  all_goals
    refine ⟨⟨_, _, ⟨1/2, 1/2, rfl, rfl, rfl, rfl⟩, by decide +kernel, by decide +kernel⟩, fun e => ?_⟩
    simp

/-- Rows that end a file; `demoQ` raises `AttributeError`. -/
example : Ends demoQ [demoName 'g', ['x'], ['1'], ['1']] .AttributeError ∧ Ends demoQ [demoName 'g'] .ValueError ∧
    (generateFull idOrd demoQ (tableOf [demoRow 'g' 0, demoRow 'a' 7]) (1/2) 0 none
      (.file (Csv.write [[demoName 'g', ['1'], ['2'], ['0']], [demoName 'a', ['x'], ['1'], ['1']]])) (.df demoTable)).2 =
      .error .AttributeError ∧ (Row.term ⟨[], .str ['x'], 0, 0⟩).isOk = false :=
  ⟨.inr ⟨_, _, _, _, rfl, by decide +kernel, by decide⟩, .inl ⟨by decide, rfl⟩, by decide +kernel, by decide +kernel⟩

theorem C115_fails : ¬C115_full := by
  intro h
  obtain ⟨w, h1, _⟩ := h idOrd demoQ _ _ 0 0 idOrd_shuffles demo_readable
  have := C115_raises idOrd demoQ _ _ demo_readable 0 0 none .absent [] rfl .absent (.inr rfl) ⟨0, 1, demoTerm 'g', by decide, rfl, by decide, by decide +kernel⟩
  rw [h1] at this
  cases this

end AtomTk
