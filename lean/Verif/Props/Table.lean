import Verif.Model.Table
import Verif.Props.Transitions

/-! # C50, C51: loading tables of levels and transitions -/

namespace AtomTk
open Util World

/-! ## C50 -/

/-- The table with default index 0, 1, 2, ... -/
def tableOf (rows : List Row) : Table := rows.zipIdx.map (fun p => (p.2, p.1))

/-- The full claim for the default number of rows: every row's level is in the atom. -/
def C50_full : Prop := ∀ (df : Table) (I B : ℚ), df.keys.Nodup → (∀ p ∈ df, ∃ t, p.2.term = .ok t) →
  (df.map (fun p => p.2.term)).Nodup →
  ∀ p ∈ df, ∀ t, p.2.term = .ok t → t.name ∈ (fromDataframe df I B none).1.levelNames

theorem zipIdx_get (rows : List Row) (k i : Nat) :
    Dict.get? ((rows.zipIdx k).map (fun p => (p.2, p.1))) (k + i) = rows[i]? := by
  induction rows generalizing k i with
  | nil => simp [Dict.get?]
  | cons r rows ih =>
    rw [List.zipIdx_cons, List.map_cons]
    unfold Dict.get?
    cases i with
    | zero => simp
    | succ i =>
      simp only
      rw [if_neg (by omega)]
      have := ih (k + 1) i
      rw [show k + (i + 1) = k + 1 + i by omega, this]
      simp

theorem tableOf_get (rows : List Row) (i : Nat) : (tableOf rows).get? i = rows[i]? := by
  have := zipIdx_get rows 0 i
  rw [Nat.zero_add] at this
  exact this

theorem tableOf_length (rows : List Row) : (tableOf rows).length = rows.length := by simp [tableOf]

/-- A level freshly loaded from a row. -/
def loaded (r : Row) (t : Term) : ELevel := ⟨t, r.level, r.lande, 0, 0, 0, none, true, false, []⟩

/-- After some rows: the levels so far, in order. -/
structure Upto (rows : List Row) (ts : List Term) (m : Nat) (w : World) : Prop where
  reach : Reachable w
  nlv : w.nlv = m
  keys : w.g.keys = (ts.take m).map Term.name
  lv : ∀ j r t, j < m → rows[j]? = some r → ts[j]? = some t → w.lv j = loaded r t ∧ w.g.lev t.name = some j
  lalias : w.lalias = []
  ntr : w.ntr = 0

theorem addRow_ok (rows : List Row) (ts : List Term) (w : World) (m : Nat) (r : Row) (t : Term)
    (hd : (ts.map Term.name).Nodup) (hr : rows[m]? = some r) (ht : ts[m]? = some t) (hrt : r.term = .ok t)
    (hu : Upto rows ts m w) : ∃ w', addRow (tableOf rows) m w = (w', .ok ()) ∧ Upto rows ts (m + 1) w' := by
  have hml : m < ts.length := (List.getElem?_eq_some_iff.1 ht).1
  have hget : ts[m] = t := (List.getElem?_eq_some_iff.1 ht).2
  have htake : ts.take (m + 1) = ts.take m ++ [t] := by rw [List.take_add_one, ht]; rfl
  have hnew : t.name ∉ w.g.keys := by
    rw [hu.keys]
    have h1 : ((ts.take (m + 1)).map Term.name).Nodup := ((List.take_sublist _ _).map _).nodup hd
    rw [htake, List.map_append, List.nodup_append] at h1
    intro h2
    exact h1.2.2 _ h2 _ (by simp) rfl
  have hlevn : w.g.lev t.name = none := by
    cases h : w.g.lev t.name with
    | none => rfl
    | some i => exact absurd (Graph.mem_of_lev h) hnew
  let w1 : World := { w with nlv := w.nlv + 1, lv := upd w.lv w.nlv ⟨t, r.level, r.lande, 0, 0, 0, none, false, false, []⟩ }
  have e1 : newLevel t r.level r.lande 0 0 0 none w = (w1, .ok w.nlv) := rfl
  let w2 : World := { w1 with lv := upd w1.lv w.nlv (loaded r t), g := w.g.addNode t.name w.nlv }
  have e2 : addLevel w.nlv false none w1 = (w2, .ok ()) := by
    have h1 : lvAddToAtom w.nlv w1 = (w2, .ok ()) := by
      unfold lvAddToAtom PyM.modify
      have : w1.lv w.nlv = ⟨t, r.level, r.lande, 0, 0, 0, none, false, false, []⟩ := upd_same ..
      simp only [lname, this, w2, loaded]
      rfl
    have h2 : regAlias w.nlv w2 = (w2, .ok ()) := by
      unfold regAlias
      have : (w2.lv w.nlv).ali = none := by simp [w2, upd_same, loaded]
      rw [this]
    unfold addLevel
    rw [PyM.bind_ok h1, PyM.bind_ok (show setAliasOpt w.nlv none w2 = (w2, .ok ()) from rfl), PyM.bind_ok h2]
    rfl
  refine ⟨w2, ?_, ?_⟩
  · unfold addRow
    rw [PyM.bind_ok (show PyM.lift ((tableOf rows).getE m) w = (w, .ok r) by
      unfold PyM.lift; rw [Dict.getE_ok.2 ((tableOf_get rows m).trans hr)])]
    rw [PyM.bind_ok (show PyM.lift r.term w = (w, .ok t) by unfold PyM.lift; rw [hrt])]
    rw [PyM.bind_ok e1, e2]
  · have r1 : Reachable w1 := by
      have := Reachable.step (.newLevel t r.level r.lande 0 0 0 none) hu.reach trivial
      simpa only [Op.run, Op.void_fst, e1] using this
    have r2 : Reachable w2 := by
      have := Reachable.step (.addLevel w.nlv false none) r1 ⟨by show w.nlv < w.nlv + 1; omega, .inl (by
        show w.g.lev (w1.lname w.nlv) = none
        have : w1.lname w.nlv = t.name := by simp [w1, lname, upd_same]
        rw [this]; exact hlevn)⟩
      simpa only [Op.run, e2] using this
    refine ⟨r2, by show w.nlv + 1 = m + 1; rw [hu.nlv], ?_, ?_, hu.lalias, hu.ntr⟩
    · show (w.g.addNode t.name w.nlv).keys = _
      rw [Graph.keys_addNode, if_neg hnew, hu.keys, htake, List.map_append]
      rfl
    · intro j r' t' hj hr' ht'
      show upd w1.lv w.nlv (loaded r t) j = _ ∧ (w.g.addNode t.name w.nlv).lev t'.name = some j
      rw [Graph.lev_addNode]
      rcases Nat.lt_succ_iff_lt_or_eq.1 hj with hj | rfl
      · have h1 := hu.lv j r' t' hj hr' ht'
        have hne : j ≠ w.nlv := by rw [hu.nlv]; omega
        have hne' : t'.name ≠ t.name := by
          intro h
          rw [← h] at hlevn
          rw [h1.2] at hlevn
          cases hlevn
        rw [upd_ne _ _ _ hne, if_neg (Ne.symm hne')]
        refine ⟨?_, h1.2⟩
        show upd w.lv w.nlv _ j = _
        rw [upd_ne _ _ _ hne]; exact h1.1
      · rw [hr] at hr'; rw [ht] at ht'
        simp only [Option.some.injEq] at hr' ht'
        subst hr' ht'
        rw [← hu.nlv, upd_same, if_pos rfl]
        exact ⟨rfl, rfl⟩

theorem addRow_missing (rows : List Row) (w : World) (m : Nat) (hm : rows.length ≤ m) :
    addRow (tableOf rows) m w = (w, .error .KeyError) := by
  unfold addRow
  refine PyM.bind_err ?_
  unfold PyM.lift
  rw [Dict.getE_err]
  rw [tableOf_get, List.getElem?_eq_none hm]

theorem addRows_cons (df : Table) (i : Nat) (is : List Nat) :
    addRows df (i :: is) = (catchKey (addRow df i) >>= fun _ => addRows df is) := rfl

theorem addRows_append (df : Table) (l1 l2 : List Nat) (w w1 : World) (h : addRows df l1 w = (w1, .ok ())) :
    addRows df (l1 ++ l2) w = addRows df l2 w1 := by
  induction l1 generalizing w with
  | nil =>
    have : w = w1 := (Prod.mk.inj h).1
    subst this; rfl
  | cons i l1 ih =>
    rw [List.cons_append, addRows_cons]
    rw [addRows_cons] at h
    rcases hc : catchKey (addRow df i) w with ⟨w2, r⟩
    cases r with
    | error e => rw [PyM.bind_err hc] at h; simp at h
    | ok u => rw [PyM.bind_ok hc] at h ⊢; exact ih w2 h

theorem addRows_upto (rows : List Row) (ts : List Term) (hlen : ts.length = rows.length) (hd : (ts.map Term.name).Nodup)
    (hts : ∀ (i : Nat) r t, rows[i]? = some r → ts[i]? = some t → r.term = .ok t) (I B : ℚ) (m : Nat) :
    ∃ w', addRows (tableOf rows) (List.range m) (emptyAtom I B) = (w', .ok ()) ∧ Upto rows ts (min m rows.length) w' := by
  induction m with
  | zero =>
    refine ⟨_, rfl, ⟨.empty I B, ?_, ?_, ?_, rfl, rfl⟩⟩
    · simp [emptyAtom]
    · simp [emptyAtom, Dict.keys]
    · intro j r t hj; simp at hj
  | succ m ih =>
    obtain ⟨w, h1, h2⟩ := ih
    rw [List.range_succ, addRows_append _ _ _ _ _ h1]
    by_cases hm : m < rows.length
    · rw [min_eq_left hm.le] at h2
      obtain ⟨w', h3, h4⟩ := addRow_ok rows ts w m rows[m] ts[m] hd (List.getElem?_eq_getElem hm)
        (List.getElem?_eq_getElem (by omega)) (hts m _ _ (List.getElem?_eq_getElem hm) (List.getElem?_eq_getElem (by omega))) h2
      refine ⟨w', ?_, by rw [min_eq_left hm]; exact h4⟩
      unfold addRows
      rw [PyM.bind_ok (show catchKey (addRow (tableOf rows) m) w = (w', .ok ()) by unfold catchKey; rw [h3])]
      rfl
    · refine ⟨w, ?_, by rw [min_eq_right (by omega)]; rw [min_eq_right (by omega)] at h2; exact h2⟩
      unfold addRows
      rw [PyM.bind_ok (show catchKey (addRow (tableOf rows) m) w = (w, .ok ()) by
        unfold catchKey; rw [addRow_missing rows w m (by omega)])]
      rfl

theorem rowTerms_mem (r : Row) (cs : List Comp) (ts : List Term) (h : r.terms cs = .ok ts) :
    (∀ t ∈ ts, fracToFloat r.J = .ok t.J ∧ t.F = none ∧ t.mF = none ∧
      ∃ c ∈ cs, c.conf = some t.conf ∧ c.term = some t.term ∧ c.pct = t.percentage) ∧
    (∀ c ∈ cs, c.conf ≠ none → ∃ t ∈ ts, c.conf = some t.conf ∧ c.term = some t.term ∧ c.pct = t.percentage) := by
  induction cs generalizing ts with
  | nil => simp [Row.terms] at h; subst h; simp
  | cons c cs ih =>
    unfold Row.terms at h
    split at h
    · rename_i hc
      obtain ⟨h1, h2⟩ := ih ts h
      refine ⟨fun t ht => ?_, fun c' hc' hn => ?_⟩
      · obtain ⟨a, b, b', c', h3, h4⟩ := h1 t ht
        exact ⟨a, b, b', c', by simp [h3], h4⟩
      · rcases List.mem_cons.1 hc' with rfl | hc'
        · exact absurd hc hn
        · exact h2 c' hc' hn
    · simp at h
    · rename_i cf tm hcf htm
      cases hm : Term.mk' cf tm r.J .none .none c.pct with
      | error e => rw [hm] at h; simp [bind, Except.bind] at h
      | ok t =>
        cases hr : r.terms cs with
        | error e => rw [hm, hr] at h; simp [bind, Except.bind] at h
        | ok ts' =>
          rw [hm, hr] at h
          simp only [bind, Except.bind, Except.ok.injEq] at h
          subst h
          have ht : fracToFloat r.J = .ok t.J ∧ t.F = none ∧ t.mF = none ∧ t.conf = cf ∧ t.term = tm ∧ t.percentage = c.pct := by
            unfold Term.mk' at hm
            cases hJ : fracToFloat r.J with
            | error e => rw [hJ] at hm; simp [bind, Except.bind] at hm
            | ok J =>
              rw [hJ] at hm
              simp only [bind, Except.bind, fracToFloat] at hm
              cases hq : getQuantumNums cf tm with
              | error e => rw [hq] at hm; simp at hm
              | ok q =>
                rw [hq] at hm
                simp only [Except.ok.injEq] at hm
                subst hm
                exact ⟨rfl, rfl, rfl, rfl, rfl, rfl⟩
          obtain ⟨h1, h2⟩ := ih ts' hr
          refine ⟨fun t' ht' => ?_, fun c' hc' hn => ?_⟩
          · rcases List.mem_cons.1 ht' with rfl | ht'
            · exact ⟨ht.1, ht.2.1, ht.2.2.1, c, by simp, by rw [hcf, ht.2.2.2.1], by rw [htm, ht.2.2.2.2.1], ht.2.2.2.2.2.symm⟩
            · obtain ⟨a, b, b', c', h3, h4⟩ := h1 t' ht'
              exact ⟨a, b, b', c', by simp [h3], h4⟩
          · rcases List.mem_cons.1 hc' with rfl | hc'
            · exact ⟨t, by simp, by rw [hcf, ht.2.2.2.1], by rw [htm, ht.2.2.2.2.1], ht.2.2.2.2.2.symm⟩
            · obtain ⟨t', a, b⟩ := h2 c' hc' hn
              exact ⟨t', by simp [a], b⟩

/-- The term of a row: the J of the row, and configuration and term symbol of a component of greatest percentage. -/
theorem row_leading (r : Row) (t : Term) (h : r.term = .ok t) :
    fracToFloat r.J = .ok t.J ∧ t.F = none ∧ t.mF = none ∧
    (∃ c ∈ r.comps, c.conf = some t.conf ∧ c.term = some t.term ∧ c.pct = t.percentage) ∧
    ∀ c ∈ r.comps, c.conf ≠ none → c.pct ≤ t.percentage := by
  unfold Row.term at h
  cases hts : r.terms r.comps with
  | error e => rw [hts] at h; simp [bind, Except.bind] at h
  | ok ts =>
    rw [hts] at h
    simp only [bind, Except.bind, MultiTerm.attr, MultiTerm.mk', id] at h
    obtain ⟨h1, h2⟩ := rowTerms_mem r _ _ hts
    cases hs : pySorted (fun a b : Term => decide (b.percentage ≤ a.percentage)) ts with
    | nil => rw [hs] at h; simp at h
    | cons x xs =>
      rw [hs] at h
      simp only [Except.ok.injEq] at h
      subst h
      have hp := pySorted_perm (fun a b : Term => decide (b.percentage ≤ a.percentage)) ts
      rw [hs] at hp
      have hx : x ∈ ts := hp.mem_iff.1 (by simp)
      obtain ⟨a, b, c, d⟩ := h1 x hx
      refine ⟨a, b, c, d, fun c' hc' hn => ?_⟩
      obtain ⟨t', ht', _, _, he⟩ := h2 c' hc' hn
      rw [he]
      have hpw := pySorted_pairwise (fun a b : Term => decide (b.percentage ≤ a.percentage))
        (fun a b => by simp only [decide_eq_true_eq]; exact le_total _ _)
        (fun a b c h1 h2 => by simp only [decide_eq_true_eq] at *; linarith) ts
      rw [hs] at hpw
      rcases List.mem_cons.1 (hp.mem_iff.2 ht') with rfl | hm
      · exact le_refl _
      · have := (List.pairwise_cons.1 hpw).1 t' hm
        simpa using this

/-- C50 for tables with the default index: exactly the levels of the first `num` rows that exist, in order, each with the
energy, the J and the Lande factor of its row.  The rows must be readable and have different names. -/
theorem C50_loaded_partial (rows : List Row) (ts : List Term) (hts : rows.map Row.term = ts.map .ok)
    (hd : (ts.map Term.name).Nodup) (I B : ℚ) (num : Option Nat) :
    ∃ w', fromDataframe (tableOf rows) I B num = (w', .ok ()) ∧ w'.I = I ∧
      w'.levelNames = (ts.take (num.getD rows.length)).map Term.name ∧
      ∀ (i : Nat) r t, i < num.getD rows.length → rows[i]? = some r → ts[i]? = some t →
        ∃ k, w'.g.lev t.name = some k ∧ (w'.lv k).term = t ∧ w'.eHz k = r.level ∧ (w'.lv k).lande = r.lande ∧
          fracToFloat r.J = .ok (w'.lv k).term.J := by
  have hlen : ts.length = rows.length := by
    have := congrArg List.length hts
    simpa using this.symm
  have hget : ∀ (i : Nat) r t, rows[i]? = some r → ts[i]? = some t → r.term = .ok t := by
    intro i r t h1 h2
    have := congrArg (·[i]?) hts
    simp only [List.getElem?_map, h1, h2, Option.map_some, Option.some.injEq] at this
    exact this
  obtain ⟨w', h1, h2⟩ := addRows_upto rows ts hlen hd hget I B (num.getD rows.length)
  refine ⟨w', by unfold fromDataframe; rw [tableOf_length]; exact h1, ?_, ?_, ?_⟩
  · have hI : ∀ (l : List Nat) (w : World), (addRows (tableOf rows) l w).1.I = w.I := by
      intro l
      induction l with
      | nil => intro w; rfl
      | cons i l ih =>
        intro w
        unfold addRows
        refine PyM.bind_rel (fun a b => b.I = a.I) (fun a b c h1 h2 => h2.trans h1) (fun w => ?_) (fun _ => ih) w
        have : (addRow (tableOf rows) i w).1.I = w.I := by
          unfold addRow
          refine PyM.bind_rel (fun a b => b.I = a.I) (fun a b c h1 h2 => h2.trans h1) (fun w => ?_) (fun _ => ?_) w
          · rfl
          intro w
          refine PyM.bind_rel (fun a b => b.I = a.I) (fun a b c h1 h2 => h2.trans h1) (fun w => ?_) (fun _ => ?_) w
          · rfl
          intro w
          refine PyM.bind_rel (fun a b => b.I = a.I) (fun a b c h1 h2 => h2.trans h1) (fun w => rfl) (fun _ => ?_) w
          intro w
          exact (addLevel_keep _ _ _ w).I
        unfold catchKey
        split
        · rename_i h; rw [h] at this; exact this
        · exact this
    have := hI (List.range (num.getD rows.length)) (emptyAtom I B)
    rw [h1] at this
    exact this
  · rw [h2.reach.names, h2.keys, ← hlen]
    congr 1
    rcases le_total (num.getD ts.length) ts.length with h | h
    · rw [min_eq_left h]
    · rw [min_eq_right h, List.take_of_length_le h, List.take_length]
  · intro i r t hi hr ht
    have hi' : i < rows.length := (List.getElem?_eq_some_iff.1 hr).1
    obtain ⟨h3, h4⟩ := h2.lv i r t (lt_min hi hi') hr ht
    refine ⟨i, h4, by rw [h3]; rfl, by unfold eHz; rw [h3]; rfl, by rw [h3]; rfl, ?_⟩
    rw [h3]
    exact (row_leading r t (hget i r t hr ht)).1

/-- Asking for more rows than exist gives the same atom as asking for all. -/
theorem C50_more (rows : List Row) (ts : List Term) (hts : rows.map Row.term = ts.map .ok)
    (hd : (ts.map Term.name).Nodup) (I B : ℚ) (k : Nat) (hk : rows.length ≤ k) :
    fromDataframe (tableOf rows) I B (some k) = fromDataframe (tableOf rows) I B none := by
  have hlen : ts.length = rows.length := by
    have := congrArg List.length hts
    simpa using this.symm
  have hget : ∀ (i : Nat) r t, rows[i]? = some r → ts[i]? = some t → r.term = .ok t := by
    intro i r t h1 h2
    have := congrArg (·[i]?) hts
    simp only [List.getElem?_map, h1, h2, Option.map_some, Option.some.injEq] at this
    exact this
  unfold fromDataframe
  simp only [Option.getD_some, Option.getD_none, tableOf_length]
  obtain ⟨w', h1, h2⟩ := addRows_upto rows ts hlen hd hget I B rows.length
  have key : ∀ n, addRows (tableOf rows) (List.range (rows.length + n)) (emptyAtom I B) = (w', .ok ()) := by
    intro n
    induction n with
    | zero => exact h1
    | succ n ih =>
      rw [← Nat.add_assoc, List.range_succ, addRows_append _ _ _ _ _ ih]
      unfold addRows
      rw [PyM.bind_ok (show catchKey (addRow (tableOf rows) (rows.length + n)) w' = (w', .ok ()) by
        unfold catchKey; rw [addRow_missing rows w' _ (by omega)])]
      rfl
  rw [h1]
  have := key (k - rows.length)
  rwa [Nat.add_sub_cancel' hk] at this

/-- A row that cannot be read stops the loading with its error: nothing after it is loaded. -/
theorem C50_abort (rows : List Row) (ts : List Term) (bad : Row) (rest : List Row) (e : PyErr)
    (hts : rows.map Row.term = ts.map .ok) (hd : (ts.map Term.name).Nodup) (hbad : bad.term = .error e) (hne : e ≠ .KeyError)
    (I B : ℚ) : ∃ w', fromDataframe (tableOf (rows ++ bad :: rest)) I B none = (w', .error e) ∧
      w'.levelNames = ts.map Term.name := by
  have hlen : ts.length = rows.length := by
    have := congrArg List.length hts
    simpa using this.symm
  have hget : ∀ (i : Nat) r t, rows[i]? = some r → ts[i]? = some t → r.term = .ok t := by
    intro i r t h1 h2
    have := congrArg (·[i]?) hts
    simp only [List.getElem?_map, h1, h2, Option.map_some, Option.some.injEq] at this
    exact this
  have hpre : ∀ i, i < rows.length → (tableOf (rows ++ bad :: rest)).get? i = (tableOf rows).get? i := by
    intro i hi
    rw [tableOf_get, tableOf_get, List.getElem?_append_left hi]
  have hsame : ∀ (l : List Nat) (w : World), (∀ i ∈ l, i < rows.length) →
      addRows (tableOf (rows ++ bad :: rest)) l w = addRows (tableOf rows) l w := by
    intro l
    induction l with
    | nil => intro w _; rfl
    | cons i l ih =>
      intro w hl
      unfold addRows
      have e1 : addRow (tableOf (rows ++ bad :: rest)) i = addRow (tableOf rows) i := by
        unfold addRow
        have : (tableOf (rows ++ bad :: rest)).getE i = (tableOf rows).getE i := by
          unfold Dict.getE
          rw [hpre i (hl i (by simp))]
        rw [this]
      rw [e1]
      rcases hc : catchKey (addRow (tableOf rows) i) w with ⟨w2, r⟩
      cases r with
      | error e => rw [PyM.bind_err hc, PyM.bind_err hc]
      | ok u => rw [PyM.bind_ok hc, PyM.bind_ok hc]; exact ih w2 (fun j hj => hl j (by simp [hj]))
  obtain ⟨w', h1, h2⟩ := addRows_upto rows ts hlen hd hget I B rows.length
  rw [min_self] at h2
  refine ⟨w', ?_, ?_⟩
  · unfold fromDataframe
    rw [tableOf_length]
    simp only [Option.getD_none, List.length_append, List.length_cons]
    have hr : List.range (rows.length + (rest.length + 1)) = List.range rows.length ++ (rows.length :: (List.range rest.length).map (rows.length + 1 + ·)) := by
      rw [List.range_add, List.range_succ_eq_map]
      simp only [List.map_cons, List.map_map, Nat.add_zero]
      show _ ++ rows.length :: _ = _
      congr 2
      refine List.map_congr_left (fun i _ => ?_)
      simp only [Function.comp]; omega
    rw [hr, addRows_append _ _ _ _ w' (by rw [hsame _ _ (fun i hi => List.mem_range.1 hi)]; exact h1)]
    unfold addRows
    refine PyM.bind_err ?_
    have : addRow (tableOf (rows ++ bad :: rest)) rows.length w' = (w', .error e) := by
      unfold addRow
      rw [PyM.bind_ok (show PyM.lift ((tableOf (rows ++ bad :: rest)).getE rows.length) w' = (w', .ok bad) by
        unfold PyM.lift
        rw [Dict.getE_ok.2 (show Dict.get? _ _ = some bad from (tableOf_get _ _).trans (by simp))])]
      refine PyM.bind_err ?_
      unfold PyM.lift; rw [hbad]
    unfold catchKey
    rw [this]
    cases e <;> first | rfl | exact absurd rfl hne
  · rw [h2.reach.names, h2.keys, ← hlen, List.take_length]

/-- A readable row. -/
def demoRow (c : Char) (E : ℚ) : Row := ⟨[⟨some [c], some ['2', 'S'], 100⟩, ⟨none, none, 0⟩], .str ['1', '/', '2'], E, 2⟩

/-- A table whose index has a gap (rows were filtered out): the last row is not loaded. -/
theorem C50_fails : ¬C50_full := by
  intro h
  have := h [(0, demoRow 'g' 0), (5, demoRow 'a' 7)] 0 0 (by decide +kernel)
    (by intro p hp; simp at hp; rcases hp with rfl | rfl
        · exact ⟨_, rfl⟩
        · exact ⟨_, rfl⟩)
    (by simp [demoRow, Row.term, Row.terms]; decide +kernel)
    (5, demoRow 'a' 7) (by simp) _ rfl
  revert this
  decide +kernel

example : [demoRow 'g' 0, demoRow 'a' 7].map Row.term =
    [⟨['g'], ['2', 'S'], some (1/2), none, none, 100, { l := some 0, s := some (1/2) }⟩,
     ⟨['a'], ['2', 'S'], some (1/2), none, none, 100, { l := some 0, s := some (1/2) }⟩].map .ok := by decide +kernel

/-! ## C51 -/

/-- The two level names of a row whose J entries are numbers. -/
def World.TRow.names (r : TRow) (a b : Str) : Prop :=
  ∃ jl ju, toFloat r.jL = .ok jl ∧ toFloat r.jU = .ok ju ∧ a = r.confL ++ ' ' :: r.termL ++ numToFrac jl ∧
    b = r.confU ++ ' ' :: r.termU ++ numToFrac ju

/-- The row is about the pair, in either order. -/
def World.TRow.about (r : TRow) (a b : Str) : Prop := r.names a b ∨ r.names b a

theorem World.TRow.names_unique {r : TRow} {a b c d : Str} (h : r.names a b) (h' : r.names c d) : a = c ∧ b = d := by
  obtain ⟨jl, ju, h1, h2, rfl, rfl⟩ := h
  obtain ⟨jl', ju', h1', h2', rfl, rfl⟩ := h'
  rw [h1] at h1'; rw [h2] at h2'
  cases h1'; cases h2'
  exact ⟨rfl, rfl⟩

theorem transRow_eq (σ : Ord') (r : TRow) (a b : Str) (h : r.names a b) (w : World) :
    transRow σ r w = catchKey (rowBody σ a b r.freq r.A) w := by
  obtain ⟨jl, ju, h1, h2, rfl, rfl⟩ := h
  unfold transRow
  rw [PyM.bind_ok (show PyM.lift (toFloat r.jL) w = (w, .ok jl) by unfold PyM.lift; rw [h1]),
    PyM.bind_ok (show PyM.lift (toFloat r.jU) w = (w, .ok ju) by unfold PyM.lift; rw [h2])]
  rfl

/-- C51, missing J: a row in which a J is `None` stops the loading with a `TypeError`; nothing of it is added, and the rows
after it are not reached. -/
theorem C51_missing_partial (w : World) (σ : Ord') (r : TRow) (rs : List TRow) (h : r.jL = .none ∨ ∃ q, r.jL = .num q ∧ r.jU = .none) :
    populateDf σ (r :: rs) w = (w, .error .TypeError) := by
  have : transRow σ r w = (w, .error .TypeError) := by
    unfold transRow
    rcases h with h | ⟨q, h, h'⟩
    · rw [PyM.bind_err (show PyM.lift (toFloat r.jL) w = (w, .error .TypeError) by rw [h]; rfl)]
    · rw [PyM.bind_ok (show PyM.lift (toFloat r.jL) w = (w, .ok q) by rw [h]; rfl),
        PyM.bind_err (show PyM.lift (toFloat r.jU) w = (w, .error .TypeError) by rw [h']; rfl)]
  show (transRow σ r >>= fun _ => populateDf σ rs) w = _
  rw [PyM.bind_err this]

/-- C51, unknown levels: a row one of whose names is not in the atom has no effect. -/
theorem C51_unknown_partial (w : World) (σ : Ord') (r : TRow) (a b : Str) (hg : w.g.keys.Nodup) (hn : r.names a b) (ha : Plain w a) (hb : Plain w b)
    (h : w.g.lev a = none ∨ w.g.lev b = none) : transRow σ r w = (w, .ok ()) := by
  rw [transRow_eq σ r a b hn]
  have : rowBody σ a b r.freq r.A w = (w, .error .KeyError) := by
    unfold rowBody
    have key : ∀ n, Plain w n → levelsGet n w = (w, match w.g.lev n with
        | some i => .ok (.fine i)
        | none => .error .KeyError) := by
      intro n hn
      rw [levelsGet_plainKey hn.1, hn.2, Graph.get?_levelAttrs _ hg]
      cases w.g.lev n <;> rfl
    cases h1 : w.g.lev a with
    | none =>
      have e := key a ha
      rw [h1] at e
      rw [PyM.bind_err e]
    | some i =>
      have e := key a ha
      rw [h1] at e
      rw [PyM.bind_ok e]
      have h2 : w.g.lev b = none := by rcases h with h | h
                                       · rw [h1] at h; cases h
                                       · exact h
      have e := key b hb
      rw [h2] at e
      rw [PyM.bind_err e]
  unfold catchKey
  rw [this]

/-- What a row leaves alone. -/
structure RowFrame (w w' : World) : Prop where
  reach : Reachable w'
  lev : ∀ n, w'.g.lev n = w.g.lev n
  keys : w'.g.keys = w.g.keys
  lalias : w'.lalias = w.lalias
  nlv : w'.nlv = w.nlv
  lv : ∀ i, ∃ E b, w'.lv i = { w.lv i with levelHz := E, fixed := b }
  ntr : w.ntr ≤ w'.ntr
  tr : ∀ t, t < w.ntr → w'.tr t = w.tr t

theorem RowFrame.term {w w' : World} (h : RowFrame w w') (i : Nat) : (w'.lv i).term = (w.lv i).term := by
  obtain ⟨E, b, e⟩ := h.lv i
  rw [e]

theorem RowFrame.trans {a b c : World} (h1 : RowFrame a b) (h2 : RowFrame b c) : RowFrame a c :=
  ⟨h2.reach, fun n => (h2.lev n).trans (h1.lev n), h2.keys.trans h1.keys, h2.lalias.trans h1.lalias, h2.nlv.trans h1.nlv,
    fun i => by
      obtain ⟨E, b, e⟩ := h1.lv i
      obtain ⟨E', b', e'⟩ := h2.lv i
      exact ⟨E', b', by rw [e', e]⟩, h1.ntr.trans h2.ntr,
    fun t ht => (h2.tr t (lt_of_lt_of_le ht h1.ntr)).trans (h1.tr t ht)⟩

theorem transRow_ok (w : World) (σ : Ord') (hσ : Shuffles σ) (r : TRow) (a b : Str) (i j : Nat) (hr : Reachable w) (hn : r.names a b)
    (ha : Plain w a) (hb : Plain w b) (hi : w.g.lev a = some i) (hj : w.g.lev b = some j)
    (hJ : (w.lv i).term.J ≠ none) (hJ' : (w.lv j).term.J ≠ none) (hA : ∀ e, r.A ≠ .bad e) :
    ∃ w' t, transRow σ r w = (w', .ok ()) ∧ RowFrame w w' ∧
      (∀ u v, w'.g.adj u v = if (u = a ∧ v = b) ∨ (u = b ∧ v = a) then some t else w.g.adj u v) ∧
      (w'.tr t).e1 = i ∧ (w'.tr t).e2 = j ∧ (w'.tr t).A = r.A.rate ∧ (w'.tr t).setFreq = r.freq ∧ (w'.tr t).built = true ∧ (r.freq = none → w'.lv = w.lv) := by
  obtain ⟨J0, hJ0⟩ := Option.ne_none_iff_exists'.1 hJ
  obtain ⟨J1, hJ1⟩ := Option.ne_none_iff_exists'.1 hJ'
  obtain ⟨hni, hini, hilt⟩ := hr.wf.node a i hi
  obtain ⟨hnj, hinj, hjlt⟩ := hr.wf.node b j hj
  have e1 := newTrans_ok w i j r.freq r.A none J0 J1 hini hJ0 hJ1 hA
  have r1 : Reachable (Op.run (.newTrans i j r.freq r.A none) w).1 :=
    .step _ hr ⟨by unfold Registered; rw [hni]; exact hi, by unfold Registered; rw [hnj]; exact hj, hJ, hJ', hA⟩
  have hrun : (Op.run (.newTrans i j r.freq r.A none) w).1 = (newTrans i j r.freq r.A none w).1 := by
    simp only [Op.run, Op.void_fst]
  rw [hrun] at r1
  set w1 := (newTrans i j r.freq r.A none w).1 with hw1
  have e1' : newTrans i j r.freq r.A none w = (w1, .ok w.ntr) := by rw [hw1, e1]
  rw [e1] at hw1
  simp only at hw1
  have ht1 : w1.tr w.ntr = finished w i j r.freq r.A none J0 J1 := by rw [hw1]; exact upd_same ..
  have hl1 : w1.lv = w.lv := by rw [hw1]
  have hadj : ∀ u v, w1.g.adj u v = if (u = a ∧ v = b) ∨ (u = b ∧ v = a) then some w.ntr else w.g.adj u v := by
    intro u v
    rw [hw1]
    simp only [Graph.adj_addEdge]
    split_ifs with h1 h2 h3 h4 <;> simp only [hni, hnj] at * <;> first | rfl | (exfalso; tauto)
  have hadd : World.addTransition σ w.ntr w1 = enforceIfSet σ w.ntr w1 := by
    refine readd w1 σ w.ntr r1 ?_ (by rw [ht1]; rfl) ?_
    · rw [hadj, ht1]
      simp only [finished, lname, hl1]
      have e3 : (w.lv i).term.name = a := hni
      have e4 : (w.lv j).term.name = b := hnj
      split_ifs with h1 h2 h3 <;> first | rfl | (exfalso; simp only [e3, e4] at *; tauto)
    · intro s hs; rw [ht1] at hs; simp [finished] at hs
  have hbody : rowBody σ a b r.freq r.A w = enforceIfSet σ w.ntr w1 := by
    unfold rowBody
    rw [PyM.bind_ok (levelsGet_plain hr.wf.gok.nodup ha hi), PyM.bind_ok (levelsGet_plain hr.wf.gok.nodup hb hj)]
    show (newTrans i j r.freq r.A none >>= fun t => World.addTransition σ t) w = _
    rw [PyM.bind_ok e1', hadd]
  have hlev : ∀ n, w1.g.lev n = w.g.lev n := by
    intro n; rw [hw1]; exact Graph.lev_addEdge ..
  have hkeys : w1.g.keys = w.g.keys := by
    rw [hw1]
    refine Graph.keys_addEdge_of_mem _ _ _ _ ?_ ?_
    · split_ifs
      · rw [hni]; exact Graph.mem_of_lev hi
      · rw [hnj]; exact Graph.mem_of_lev hj
    · split_ifs
      · rw [hnj]; exact Graph.mem_of_lev hj
      · rw [hni]; exact Graph.mem_of_lev hi
  have f1 : RowFrame w w1 := by
    refine ⟨r1, hlev, hkeys, by rw [hw1], by rw [hw1], fun i => ⟨_, _, by rw [hl1]⟩, by rw [hw1]; exact Nat.le_succ _, fun t ht => ?_⟩
    rw [hw1]
    exact upd_ne _ _ _ (Nat.ne_of_lt ht)
  have hen : ∃ w2, enforceIfSet σ w.ntr w1 = (w2, .ok ()) ∧ EFrame w1 w2 ∧ Reachable w2 ∧ (r.freq = none → w2.lv = w.lv) := by
    unfold enforceIfSet
    rw [if_pos (by rw [ht1]; rfl), ht1]
    cases hf : r.freq with
    | none => exact ⟨w1, by simp [finished], EFrame.refl w1, r1, fun _ => hl1⟩
    | some f =>
      obtain ⟨w2, h1, h2, _⟩ := enforce_group r1.wf hσ none []
      refine ⟨w2, by simpa [finished] using h1, h2, ?_, fun h => by cases h⟩
      have := Reachable.step (.enforce σ) r1 trivial
      simp only [Op.run, h1] at this
      exact this
  obtain ⟨w2, h1, h2, h3, h4⟩ := hen
  refine ⟨w2, w.ntr, ?_, f1.trans ?_, ?_, ?_⟩
  · rw [transRow_eq σ r a b hn]
    unfold catchKey
    rw [hbody, h1]
  · refine ⟨h3, fun n => by rw [h2.g], by rw [h2.g], h2.lalias, h2.nlv, h2.lv, h2.ntr.ge, fun t _ => by rw [h2.tr]⟩
  · intro u v; rw [h2.g]; exact hadj u v
  · rw [h2.tr, ht1]
    exact ⟨rfl, rfl, rfl, rfl, rfl, h4⟩

/-- The last row about a pair of names, or none. -/
def LastAbout (rows : List TRow) (a b : Str) (r : TRow) : Prop :=
  ∃ pre post, rows = pre ++ r :: post ∧ r.about a b ∧ ∀ r' ∈ post, ¬r'.about a b

theorem populateDf_rows (σ : Ord') (hσ : Shuffles σ) (rows : List TRow) (w : World) (hr : Reachable w)
    (hrows : ∀ r ∈ rows, (∃ a b, r.names a b ∧ Plain w a ∧ Plain w b) ∧ ∀ e, r.A ≠ .bad e)
    (hJ : ∀ n i, w.g.lev n = some i → (w.lv i).term.J ≠ none) :
    ∃ w', populateDf σ rows w = (w', .ok ()) ∧ RowFrame w w' ∧ ((∀ r ∈ rows, r.freq = none) → w'.lv = w.lv) ∧
      ∀ a b i j, w.g.lev a = some i → w.g.lev b = some j →
        (∀ r, LastAbout rows a b r → ∃ t, w'.g.adj a b = some t ∧ (w'.tr t).A = r.A.rate ∧ (w'.tr t).setFreq = r.freq ∧
          (((w'.tr t).e1 = i ∧ (w'.tr t).e2 = j) ∨ ((w'.tr t).e1 = j ∧ (w'.tr t).e2 = i))) ∧
        ((∀ r ∈ rows, ¬r.about a b) → w'.g.adj a b = w.g.adj a b ∧ ∀ t, w.g.adj a b = some t → w'.tr t = w.tr t) := by
  induction rows generalizing w with
  | nil =>
    refine ⟨w, rfl, ⟨hr, fun _ => rfl, rfl, rfl, rfl, fun _ => ⟨_, _, rfl⟩, le_refl _, fun _ _ => rfl⟩, fun _ => rfl, ?_⟩
    intro a b i j _ _
    refine ⟨?_, fun _ => ⟨rfl, fun _ _ => rfl⟩⟩
    rintro r ⟨pre, post, h, _⟩
    simp at h
  | cons r rows ih =>
    obtain ⟨⟨a, b, hn, ha, hb⟩, hA⟩ := hrows r (by simp)
    have step : ∃ w1, transRow σ r w = (w1, .ok ()) ∧ RowFrame w w1 ∧ (r.freq = none → w1.lv = w.lv) ∧
        (∀ u v, ¬r.about u v → w1.g.adj u v = w.g.adj u v) ∧
        (∀ u v i j, r.about u v → w.g.lev u = some i → w.g.lev v = some j → ∃ t, w1.g.adj u v = some t ∧ (w1.tr t).A = r.A.rate ∧
          (w1.tr t).setFreq = r.freq ∧ (((w1.tr t).e1 = i ∧ (w1.tr t).e2 = j) ∨ ((w1.tr t).e1 = j ∧ (w1.tr t).e2 = i))) := by
      by_cases hk : w.g.lev a = none ∨ w.g.lev b = none
      · refine ⟨w, C51_unknown_partial w σ r a b hr.wf.gok.nodup hn ha hb hk,
          ⟨hr, fun _ => rfl, rfl, rfl, rfl, fun _ => ⟨_, _, rfl⟩, le_refl _, fun _ _ => rfl⟩, fun _ => rfl, fun _ _ _ => rfl, ?_⟩
        intro u v i j hab hu hv
        exfalso
        rcases hab with h | h
        · obtain ⟨rfl, rfl⟩ := TRow.names_unique hn h
          rcases hk with hk | hk
          · rw [hu] at hk; cases hk
          · rw [hv] at hk; cases hk
        · obtain ⟨rfl, rfl⟩ := TRow.names_unique hn h
          rcases hk with hk | hk
          · rw [hv] at hk; cases hk
          · rw [hu] at hk; cases hk
      · rw [not_or] at hk
        obtain ⟨i, hi⟩ := Option.ne_none_iff_exists'.1 hk.1
        obtain ⟨j, hj⟩ := Option.ne_none_iff_exists'.1 hk.2
        obtain ⟨w1, t, h1, h2, h3, h4, h5, h6, h7, _, h8⟩ := transRow_ok w σ hσ r a b i j hr hn ha hb hi hj (hJ a i hi) (hJ b j hj) hA
        refine ⟨w1, h1, h2, h8, ?_, ?_⟩
        · intro u v hab
          rw [h3, if_neg]
          rintro (⟨rfl, rfl⟩ | ⟨rfl, rfl⟩)
          · exact hab (.inl hn)
          · exact hab (.inr hn)
        · intro u v i' j' hab hu hv
          rcases hab with h | h
          · obtain ⟨rfl, rfl⟩ := TRow.names_unique hn h
            rw [hi] at hu; rw [hj] at hv
            cases hu; cases hv
            exact ⟨t, by rw [h3, if_pos (.inl ⟨rfl, rfl⟩)], h6, h7, .inl ⟨h4, h5⟩⟩
          · obtain ⟨rfl, rfl⟩ := TRow.names_unique hn h
            rw [hj] at hu; rw [hi] at hv
            cases hu; cases hv
            exact ⟨t, by rw [h3, if_pos (.inr ⟨rfl, rfl⟩)], h6, h7, .inr ⟨h4, h5⟩⟩
    obtain ⟨w1, h1, h2, h0, h3, h4⟩ := step
    obtain ⟨w2, g1, g2, g0, g3⟩ := ih w1 h2.reach (fun r' hr' => by
        obtain ⟨⟨a, b, h, h5, h6⟩, h7⟩ := hrows r' (by simp [hr'])
        exact ⟨⟨a, b, h, ⟨h5.1, by rw [h2.lalias]; exact h5.2⟩, ⟨h6.1, by rw [h2.lalias]; exact h6.2⟩⟩, h7⟩)
      (fun n i hi => by rw [h2.term]; exact hJ n i (by rw [← h2.lev]; exact hi))
    refine ⟨w2, by unfold populateDf; rw [PyM.bind_ok h1]; exact g1, h2.trans g2, fun hf => ?_, ?_⟩
    · rw [g0 (fun r' hr' => hf r' (by simp [hr'])), h0 (hf r (by simp))]
    intro u v i j hu hv
    obtain ⟨g4, g5⟩ := g3 u v i j (by rw [h2.lev]; exact hu) (by rw [h2.lev]; exact hv)
    constructor
    · rintro r' ⟨pre, post, he, hab, hpost⟩
      cases pre with
      | nil =>
        simp only [List.nil_append, List.cons.injEq] at he
        obtain ⟨rfl, rfl⟩ := he
        obtain ⟨g6, g7⟩ := g5 hpost
        obtain ⟨t, k1, k2, k3, k4⟩ := h4 u v i j hab hu hv
        refine ⟨t, by rw [g6]; exact k1, ?_⟩
        rw [g7 t k1]
        exact ⟨k2, k3, k4⟩
      | cons p pre =>
        simp only [List.cons_append, List.cons.injEq] at he
        exact g4 r' ⟨pre, post, he.2, hab, hpost⟩
    · intro hno
      obtain ⟨g6, g7⟩ := g5 (fun r' hr' => hno r' (by simp [hr']))
      have h5 := h3 u v (hno r (by simp))
      refine ⟨g6.trans h5, fun t ht => ?_⟩
      rw [g7 t (by rw [h5]; exact ht)]
      exact h2.tr t (hr.wf.edge u v t ht).1

/-- C51: on an atom whose levels have a J, a table with numbers in its J columns and plain level names is read to the end.
For every pair of levels of the atom that some row is about, there is afterwards a transition between them with the
linewidth and the frequency of the last such row; for every other pair, the transition (or its absence) is unchanged.  No level is
added, removed or renamed, and of the levels nothing but energy and `fixed` changes,
without frequencies not even those. -/
theorem C51_loaded_partial (σ : Ord') (hσ : Shuffles σ) (rows : List TRow) (w : World) (hr : Reachable w)
    (hrows : ∀ r ∈ rows, (∃ a b, r.names a b ∧ Plain w a ∧ Plain w b) ∧ ∀ e, r.A ≠ .bad e)
    (hJ : ∀ n i, w.g.lev n = some i → (w.lv i).term.J ≠ none) :
    ∃ w', populateDf σ rows w = (w', .ok ()) ∧ w'.levelNames = w.levelNames ∧ (∀ n, w'.g.lev n = w.g.lev n) ∧
      (∀ i, ∃ E b, w'.lv i = { w.lv i with levelHz := E, fixed := b }) ∧ ((∀ r ∈ rows, r.freq = none) → w'.lv = w.lv) ∧
      ∀ a b i j, w.g.lev a = some i → w.g.lev b = some j →
        (∀ r, LastAbout rows a b r → ∃ t, w'.g.adj a b = some t ∧ (w'.tr t).A = r.A.rate ∧ (w'.tr t).setFreq = r.freq ∧
          (((w'.tr t).e1 = i ∧ (w'.tr t).e2 = j) ∨ ((w'.tr t).e1 = j ∧ (w'.tr t).e2 = i))) ∧
        ((∀ r ∈ rows, ¬r.about a b) → w'.g.adj a b = w.g.adj a b ∧ ∀ t, w.g.adj a b = some t → w'.tr t = w.tr t) := by
  obtain ⟨w', h1, h2, h0, h3⟩ := populateDf_rows σ hσ rows w hr hrows hJ
  exact ⟨w', h1, by rw [h2.reach.names, hr.names, h2.keys], h2.lev, h2.lv, h0, h3⟩

/-- The full claim about rows naming an unknown level, with J entries that are numbers or fractions as text. -/
def C51_full : Prop := ∀ (w : World) (σ : Ord') (r : TRow) (jl ju : ℚ), Reachable w → Shuffles σ →
  fracToFloat r.jL = .ok (some jl) → fracToFloat r.jU = .ok (some ju) →
  tableName r.confL r.termL jl ∉ w.levelNames → transRow σ r w = (w, .ok ())

/-- A J written as a fraction, as in the level tables, stops the loading with a `ValueError`. -/
theorem C51_fails : ¬C51_full := by
  intro h
  have := h (emptyAtom 0 0) idOrd ⟨['g'], ['2', 'S'], .str ['1', '/', '2'], ['a'], ['2', 'S'], .str ['1', '/', '2'], none, .none⟩
    (1/2) (1/2) (.empty 0 0) idOrd_shuffles (by norm_num [fracToFloat]; decide +kernel) (by norm_num [fracToFloat]; decide +kernel) (by decide +kernel)
  have := congrArg Prod.snd this
  revert this
  decide +kernel

/-- A table with two rows about known levels and one about an unknown one. -/
def demoTable : List TRow := [⟨['g'], ['2', 'S'], .num (1/2), ['a'], ['2', 'S'], .num (1/2), some 5, .none⟩,
  ⟨['g'], ['2', 'S'], .num (1/2), ['x'], ['2', 'S'], .num (1/2), some 5, .none⟩,
  ⟨['a'], ['2', 'S'], .num (1/2), ['g'], ['2', 'S'], .num (1/2), some 6, .none⟩]

example : SaneAll (threeLevels 0 5 9) (emptyAtom 0 0) ∧
    (∀ n ∈ (runAll (threeLevels 0 5 9) (emptyAtom 0 0)).g.keys, Plain (runAll (threeLevels 0 5 9) (emptyAtom 0 0)) n) ∧
    (populateDf idOrd demoTable (runAll (threeLevels 0 5 9) (emptyAtom 0 0))).2 = .ok () ∧
    ((populateDf idOrd demoTable (runAll (threeLevels 0 5 9) (emptyAtom 0 0))).1.tr 1).setFreq = some 6 := by
  refine ⟨by decide +kernel, by unfold Plain; decide +kernel, by decide +kernel, by decide +kernel⟩

/-- A row without J after a row about known levels: the first row is loaded. -/
example : let w := (populateDf idOrd (demoTable.take 1 ++ demoTable.map (fun r => { r with jL := .none })) (runAll (threeLevels 0 5 9) (emptyAtom 0 0)))
    w.2 = .error .TypeError ∧ (w.1.tr 0).setFreq = some 5 := by
  decide +kernel

/-- The components before one that has a configuration but no term: without a configuration, or readable. -/
def ReadsAs (r : Row) (c : Comp) : Prop := c.conf = none ∨ ∃ cf tm t, c.conf = some cf ∧ c.term = some tm ∧ Term.mk' cf tm r.J .none .none c.pct = .ok t

theorem terms_no_term (r : Row) (pre post : List Comp) (c : Comp) (cf : Str) (hp : ∀ d ∈ pre, ReadsAs r d) (hc : c.conf = some cf) (ht : c.term = none) :
    r.terms (pre ++ c :: post) = .error .TypeError := by
  induction pre with
  | nil =>
    simp only [List.nil_append]
    unfold Row.terms
    rw [hc, ht]
  | cons d pre ih =>
    have ih := ih fun x hx => hp x (by simp [hx])
    rw [List.cons_append]
    unfold Row.terms
    rcases hp d (by simp) with hn | ⟨cf', tm, t, e1, e2, e3⟩
    · rw [hn]; exact ih
    · rw [e1, e2]
      simp only [e3, ih]
      rfl

/-- C50, a row that cannot be read: a component with a configuration and no term ends the loading with a `TypeError`, whatever the rows after it say;
the `except KeyError` around the row does not hide it. -/
theorem C50_no_term (df : Table) (I B : ℚ) (num : Option Nat) (m : Nat) (r : Row) (pre post : List Comp) (c : Comp) (cf : Str) (w : World)
    (hr : df.get? m = some r) (hcs : r.comps = pre ++ c :: post) (hp : ∀ d ∈ pre, ReadsAs r d) (hc : c.conf = some cf) (ht : c.term = none)
    (hm : m < num.getD df.length) (hw : addRows df (List.range m) (emptyAtom I B) = (w, .ok ())) :
    fromDataframe df I B num = (w, .error .TypeError) := by
  unfold fromDataframe
  obtain ⟨k, hk⟩ : ∃ k, num.getD df.length = m + (k + 1) := ⟨num.getD df.length - m - 1, by omega⟩
  rw [hk, List.range_add, addRows_append _ _ _ _ _ hw, List.range_succ_eq_map, List.map_cons, addRows_cons]
  refine PyM.bind_err ?_
  have : addRow df m w = (w, .error .TypeError) := by
    unfold addRow
    rw [PyM.bind_ok (show PyM.lift (df.getE m) w = (w, .ok r) by unfold PyM.lift Dict.getE; rw [hr])]
    refine PyM.bind_err ?_
    unfold PyM.lift Row.term
    rw [hcs, terms_no_term r pre post c cf hp hc ht]
    rfl
  show catchKey (addRow df (m + 0)) w = _
  unfold catchKey
  rw [Nat.add_zero, this]

/-- A second component with a configuration and no term. -/
example : let r : Row := ⟨[⟨some "3d".toList, some "2D".toList, 90⟩, ⟨some "4s".toList, none, 10⟩], .num (5/2), 7, 1⟩
    fromDataframe [(0, r)] 0 0 none = (emptyAtom 0 0, .error .TypeError) := by
  intro r
  exact C50_no_term [(0, r)] 0 0 none 0 r [⟨some "3d".toList, some "2D".toList, 90⟩] [] ⟨some "4s".toList, none, 10⟩ "4s".toList _ rfl rfl
    (by
      intro d hd
      simp only [List.mem_singleton] at hd
      subst hd
      refine .inr ⟨"3d".toList, "2D".toList, ?_⟩
      have : (Term.mk' "3d".toList "2D".toList (.num (5/2)) .none .none 90).isOk = true := by decide +kernel
      cases h : Term.mk' "3d".toList "2D".toList (.num (5/2)) .none .none 90 with
      | error e => rw [h] at this; cases this
      | ok t => exact ⟨t, rfl, rfl, rfl⟩)
    rfl rfl (by decide) rfl

end AtomTk
