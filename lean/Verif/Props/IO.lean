import Verif.Proofs.CsvText
import Verif.Props.Subs
import Verif.Props.Container
import Mathlib.Data.Rat.Encodable

/-! # Files and configurations: C59-C62 -/

namespace AtomTk
open World

/-! ## Vocabulary for C59 and C60 -/

/-- Which level a name in a file stands for: an alias first, otherwise the level registered under that name.  Sublevels
have no hyperfine constants. -/
def whom (w : World) (n : Str) : Option Nat :=
  match w.lalias.get? n with
  | some (.fine i) => some i
  | some _ => none
  | none => w.g.lev n

/-- A name that is an alias or contains none of the markers `mF=`, `mJ=`, `F=`. -/
def Simple (w : World) (n : Str) : Prop := plainKey n = true ∨ (w.lalias.get? n).isSome = true

instance (w : World) (n : Str) : Decidable (Simple w n) := by unfold Simple; infer_instance

/-- A row as numbers: name and the three constants in Hz. -/
structure HfVals where
  name : Str
  a : ℚ
  b : ℚ
  c : ℚ
  deriving DecidableEq

/-- The texts of a row read as these numbers. -/
def Reads (q : QText) (row : List Str) (v : HfVals) : Prop :=
  ∃ ta tb tc, row = [v.name, ta, tb, tc] ∧ q.parse ta = .ok (some v.a) ∧ q.parse tb = .ok (some v.b) ∧
    q.parse tc = .ok (some v.c)

/-- The last row for level `i`. -/
def lastFor (w : World) (i : Nat) (vs : List HfVals) : Option HfVals :=
  (vs.filter fun v => decide (whom w v.name = some i)).getLast?

/-- The constants of a level set to a row's values. -/
def withVals (l : ELevel) : Option HfVals → ELevel
  | none => l
  | some v => { l with hfA := v.a, hfB := v.b, hfC := v.c }

theorem levelsGet_simple {w : World} (hg : w.g.keys.Nodup) {n : Str} (h : Simple w n) :
    levelsGet n w = (w, match w.lalias.get? n with
      | some r => .ok r
      | none => match w.g.lev n with
        | some i => .ok (.fine i)
        | none => .error .KeyError) := by
  rcases h with h | h
  · rw [levelsGet_plainKey h]
    simp only [Graph.get?_levelAttrs _ hg]
    rfl
  · obtain ⟨r, h⟩ := Option.isSome_iff_exists.1 h
    rw [levelsGet_alias h, h]

theorem levelsGet_whom {w : World} (hg : w.g.keys.Nodup) {n : Str} (h : Simple w n) :
    (∃ i, whom w n = some i ∧ levelsGet n w = (w, .ok (.fine i))) ∨
    (whom w n = none ∧ ((∃ r, (∀ i, r ≠ .fine i) ∧ levelsGet n w = (w, .ok r)) ∨ levelsGet n w = (w, .error .KeyError))) := by
  rw [levelsGet_simple hg h]
  unfold whom
  cases ha : w.lalias.get? n with
  | some r =>
    cases r with
    | fine i => exact .inl ⟨i, rfl, rfl⟩
    | hyp j => exact .inr ⟨rfl, .inl ⟨.hyp j, by simp, rfl⟩⟩
    | zee k => exact .inr ⟨rfl, .inl ⟨.zee k, by simp, rfl⟩⟩
  | none =>
    cases hl : w.g.lev n with
    | some i => exact .inl ⟨i, by simp, rfl⟩
    | none => exact .inr ⟨by simp, .inr rfl⟩

theorem assign_fine {q : QText} {c : Const} {n t : Str} {x : ℚ} {i : Nat} {w : World}
    (hp : q.parse t = .ok (some x)) (hl : levelsGet n w = (w, .ok (.fine i))) :
    assignConst q c n t w = (w.setLv i (setConst (w.lv i) c x), .ok ()) := by
  unfold assignConst
  rw [PyM.bind_ok (show PyM.lift (q.parse t) w = (w, .ok (some x)) by rw [hp]; rfl), PyM.bind_ok hl]
  rfl

theorem assign_other {q : QText} {c : Const} {n t : Str} {x : Option ℚ} {r : Ref} {w : World}
    (hp : q.parse t = .ok x) (hr : ∀ i, r ≠ .fine i) (hl : levelsGet n w = (w, .ok r)) :
    assignConst q c n t w = (w, .ok ()) := by
  unfold assignConst
  rw [PyM.bind_ok (show PyM.lift (q.parse t) w = (w, .ok x) by rw [hp]; rfl), PyM.bind_ok hl]
  cases r with
  | fine i => exact absurd rfl (hr i)
  | hyp j => rfl
  | zee k => rfl

theorem assign_missing {q : QText} {c : Const} {n t : Str} {x : Option ℚ} {w : World}
    (hp : q.parse t = .ok x) (hl : levelsGet n w = (w, .error .KeyError)) :
    assignConst q c n t w = (w, .error .KeyError) := by
  unfold assignConst
  rw [PyM.bind_ok (show PyM.lift (q.parse t) w = (w, .ok x) by rw [hp]; rfl), PyM.bind_err hl]

theorem setLv_setLv (w : World) (i : Nat) (a b : ELevel) : (w.setLv i a).setLv i b = w.setLv i b := by
  unfold World.setLv upd
  congr 1
  funext j
  by_cases h : j = i <;> simp [h]

theorem setLv_lv (w : World) (i : Nat) (a : ELevel) : (w.setLv i a).lv i = a := by simp [World.setLv, upd]

/-- What one readable row does. -/
def rowEffect (w : World) (v : HfVals) : World :=
  match whom w v.name with
  | some i => w.setLv i (withVals (w.lv i) (some v))
  | none => w

theorem applyRow_ok {q : QText} {row : List Str} {w w' : World} (h : applyRowBody q row w = (w', .ok ())) :
    applyRow q row w = (w', .ok ()) := by
  unfold applyRow
  rw [h]

theorem applyRow_key {q : QText} {row : List Str} {w w' : World} (h : applyRowBody q row w = (w', .error .KeyError)) :
    applyRow q row w = (w', .ok ()) := by
  unfold applyRow
  rw [h]

theorem applyRowBody_four (q : QText) (n a b c : Str) : applyRowBody q [n, a, b, c] = (assignConst q .A n a >>= fun _ =>
    assignConst q .B n b >>= fun _ => assignConst q .C n c) := rfl

/-- C60, one row: a row naming a level sets its three constants; a row naming no level (or a sublevel) does nothing. -/
theorem C60_row {q : QText} {row : List Str} {v : HfVals} {w : World} (hg : w.g.keys.Nodup) (hs : Simple w v.name)
    (hv : Reads q row v) : applyRow q row w = (rowEffect w v, .ok ()) := by
  obtain ⟨ta, tb, tc, rfl, ha, hb, hc⟩ := hv
  unfold rowEffect
  rcases levelsGet_whom hg hs with ⟨i, h1, h2⟩ | ⟨h1, ⟨r, hr, h2⟩ | h2⟩
  · have key : ∀ l : ELevel, levelsGet v.name (w.setLv i l) = (w.setLv i l, .ok (.fine i)) := by
      intro l
      have e := levelsGet_simple (w := w) hg hs
      have e' := levelsGet_simple (w := w.setLv i l) hg hs
      rw [h2] at e
      rw [e']
      exact congrArg (fun r => (w.setLv i l, r)) (Prod.mk.inj e).2.symm
    refine applyRow_ok ?_
    rw [applyRowBody_four, PyM.bind_ok (assign_fine (c := .A) ha h2), PyM.bind_ok (assign_fine (c := .B) hb (key _)),
      setLv_setLv, assign_fine (c := .C) hc (key _), setLv_setLv]
    simp only [h1, setLv_lv, withVals, setConst]
  · refine applyRow_ok ?_
    rw [applyRowBody_four, PyM.bind_ok (assign_other (c := .A) ha hr h2), PyM.bind_ok (assign_other (c := .B) hb hr h2),
      assign_other (c := .C) hc hr h2]
    simp only [h1]
  · refine applyRow_key ?_
    rw [applyRowBody_four, PyM.bind_err (assign_missing (c := .A) ha h2)]
    simp only [h1]

theorem rowEffect_whom (w : World) (v : HfVals) (n : Str) : whom (rowEffect w v) n = whom w n := by
  unfold rowEffect
  split <;> rfl

theorem rowEffect_g (w : World) (v : HfVals) : (rowEffect w v).g = w.g := by
  unfold rowEffect
  split <;> rfl

theorem simple_effect (w : World) (v : HfVals) (n : Str) : Simple (rowEffect w v) n ↔ Simple w n := by
  unfold Simple rowEffect
  split <;> exact Iff.rfl

/-- The state after a readable file. -/
def afterRows (w : World) (vs : List HfVals) : World :=
  { w with lv := fun i => withVals (w.lv i) (lastFor w i vs) }

theorem afterRows_cons (w : World) (v : HfVals) (vs : List HfVals) :
    afterRows (rowEffect w v) vs = afterRows w (v :: vs) := by
  have hl : ∀ i, lastFor (rowEffect w v) i vs = lastFor w i vs := by
    intro i; simp only [lastFor, rowEffect_whom]
  have e : ∀ i, withVals ((rowEffect w v).lv i) (lastFor w i vs) = withVals (w.lv i) (lastFor w i (v :: vs)) := by
    intro i
    by_cases h : whom w v.name = some i
    · have hc : lastFor w i (v :: vs) = some ((lastFor w i vs).getD v) := by
        simp only [lastFor, List.filter_cons, h, decide_true, if_true]
        cases hx : List.filter (fun v => decide (whom w v.name = some i)) vs with
        | nil => rfl
        | cons y ys => simp [List.getLast?_cons]
      rw [hc]
      simp only [rowEffect, h, setLv_lv]
      cases lastFor w i vs <;> rfl
    · have hc : lastFor w i (v :: vs) = lastFor w i vs := by
        simp [lastFor, h]
      rw [hc]
      congr 1
      unfold rowEffect
      split
      · rename_i j hj
        have : i ≠ j := by rintro rfl; exact h hj
        simp [World.setLv, upd, this]
      · rfl
  have : afterRows (rowEffect w v) vs = { rowEffect w v with lv := fun i => withVals (w.lv i) (lastFor w i (v :: vs)) } := by
    unfold afterRows
    simp only [hl, e]
  rw [this]
  unfold afterRows rowEffect
  split <;> rfl

/-- C60, the whole file: when every row can be read, each level's constants become those of the last row standing for
it, levels without a row keep theirs, and nothing else of the atom changes.  Names containing `F=`, `mF=` or `mJ=` are
left out (a lookup with such a name creates sublevels, or raises: `C60_marker_fails`). -/
theorem C60_file_partial {q : QText} {w : World} (hr : Reachable w) {rows : List (List Str)} {vs : List HfVals}
    (hv : List.Forall₂ (Reads q) rows vs) (hs : ∀ v ∈ vs, Simple w v.name) :
    applyRows q rows w = (afterRows w vs, .ok ()) := by
  have hg := hr.wf.gok.nodup
  clear hr
  induction hv generalizing w with
  | nil =>
    simp only [applyRows, afterRows, lastFor, List.filter_nil, List.getLast?_nil, withVals]
    rfl
  | @cons row v rows vs h1 h2 ih =>
    unfold applyRows
    rw [PyM.bind_ok (C60_row hg (hs v (by simp)) h1), ih (w := rowEffect w v) (fun x hx => (simple_effect w v x.name).2 (hs x (by simp [hx])))
      (by rw [rowEffect_g]; exact hg), afterRows_cons]

/-- Reading the file that these rows were written to. -/
theorem C60_text_partial {q : QText} {w : World} (hr : Reachable w) {rows : List (List Str)} {vs : List HfVals}
    (hv : List.Forall₂ (Reads q) rows vs) (hs : ∀ v ∈ vs, Simple w v.name) :
    applyHf q (Csv.write rows) w = (afterRows w vs, .ok ()) := by
  unfold applyHf
  rw [Csv.read_write]
  exact C60_file_partial hr hv hs

/-- Reading any file that writes these rows: fields in quotes or not, any line ends, with or without one after the last row. -/
theorem C60_any_partial {q : QText} {w : World} (hr : Reachable w) {s : Str} {rows : List (List Str)} {vs : List HfVals}
    (ht : Csv.FileText s rows) (hv : List.Forall₂ (Reads q) rows vs) (hs : ∀ v ∈ vs, Simple w v.name) :
    applyHf q s w = (afterRows w vs, .ok ()) := by
  unfold applyHf
  rw [Csv.read_text ht]
  exact C60_file_partial hr hv hs

example : Csv.FileText "a b,1 GHz,\"2, 3\"\n\"c \"\"d\"\"\",,\"\"".toList
    [["a b".toList, "1 GHz".toList, "2, 3".toList], ["c \"d\"".toList, [], []]] := by
  have h1 : Csv.FieldsText "a b,1 GHz,\"2, 3\"".toList ["a b".toList, "1 GHz".toList, "2, 3".toList] :=
    .more (s := "a b".toList) (.bare _ (by decide)) (.more (s := "1 GHz".toList) (.bare _ (by decide)) (.one (.quoted "2, 3".toList)))
  have h2 : Csv.FieldsText "\"c \"\"d\"\"\",,\"\"".toList ["c \"d\"".toList, [], []] :=
    .more (.quoted "c \"d\"".toList) (.more (s := []) (.bare [] (by simp)) (.one (.quoted [])))
  exact .lf (.row h1 (by decide)) (.last (.row h2 (by decide)) (by decide))

theorem applyRows_append (q : QText) (pre post : List (List Str)) (w : World) (h : (applyRows q pre w).2 = .ok ()) :
    applyRows q (pre ++ post) w = applyRows q post (applyRows q pre w).1 := by
  induction pre generalizing w with
  | nil => rfl
  | cons r rs ih =>
    simp only [List.cons_append, applyRows] at *
    cases hx : applyRow q r w with
    | mk w1 o =>
      cases o with
      | error e => rw [PyM.bind_err hx] at h; simp at h
      | ok u =>
        rw [PyM.bind_ok hx] at h ⊢
        rw [ih w1 h, PyM.bind_ok hx]

/-- A row that stops the loop before anything of it is applied: it does not have four fields, or its A value is no
quantity. -/
def Malformed (q : QText) (row : List Str) : Prop :=
  row.length ≠ 4 ∨ ∃ n a b c e, row = [n, a, b, c] ∧ q.parse a = .error e ∧ e ≠ .KeyError

/-- C60, crash points: if the rows before a malformed row are applied, the loop ends there with an error and exactly
those rows have been applied. -/
theorem C60_crash_partial {q : QText} {w : World} {pre post : List (List Str)} {bad : List Str}
    (hpre : (applyRows q pre w).2 = .ok ()) (hb : Malformed q bad) :
    (applyRows q (pre ++ bad :: post) w).1 = (applyRows q pre w).1 ∧
    ∃ e, (applyRows q (pre ++ bad :: post) w).2 = .error e := by
  rw [applyRows_append q pre _ w hpre]
  generalize (applyRows q pre w).1 = w1
  have key : ∃ e, applyRow q bad w1 = (w1, .error e) := by
    rcases hb with h | ⟨n, a, b, c, e, rfl, h, hk⟩
    · refine ⟨.ValueError, ?_⟩
      have : applyRowBody q bad w1 = (w1, .error .ValueError) := by
        unfold applyRowBody
        split
        · exact absurd rfl h
        · rfl
      unfold applyRow
      rw [this]
    · refine ⟨e, ?_⟩
      have : applyRowBody q [n, a, b, c] w1 = (w1, .error e) := by
        unfold applyRowBody
        refine PyM.bind_err ?_
        unfold assignConst
        exact PyM.bind_err (by rw [h]; rfl)
      unfold applyRow
      rw [this]
      cases e <;> first | rfl | exact absurd rfl hk
  obtain ⟨e, he⟩ := key
  unfold applyRows
  rw [PyM.bind_err he]
  exact ⟨rfl, e, rfl⟩

/-- The exception of the first malformed row. -/
theorem C60_which {q : QText} {w : World} {pre post : List (List Str)} {bad : List Str} {e : PyErr}
    (hpre : (applyRows q pre w).2 = .ok ())
    (hb : (bad.length ≠ 4 ∧ e = .ValueError) ∨ ∃ n a b c, bad = [n, a, b, c] ∧ q.parse a = .error e ∧ e ≠ .KeyError) :
    applyRows q (pre ++ bad :: post) w = ((applyRows q pre w).1, .error e) := by
  rw [applyRows_append q pre _ w hpre]
  generalize (applyRows q pre w).1 = w1
  have key : applyRow q bad w1 = (w1, .error e) := by
    rcases hb with ⟨h, rfl⟩ | ⟨n, a, b, c, rfl, h, hk⟩
    · have : applyRowBody q bad w1 = (w1, .error .ValueError) := by
        unfold applyRowBody
        split
        · exact absurd rfl h
        · rfl
      unfold applyRow
      rw [this]
    · have : applyRowBody q [n, a, b, c] w1 = (w1, .error e) := by
        unfold applyRowBody
        refine PyM.bind_err ?_
        unfold assignConst
        exact PyM.bind_err (by rw [h]; rfl)
      unfold applyRow
      rw [this]
      cases e <;> first | rfl | exact absurd rfl hk
  unfold applyRows
  rw [PyM.bind_err key]

/-- C60: a value of another dimension (a length, say) in one of the three columns of a level's row ends the call with `DimensionalityError`; the values
in the columns before it have been stored. -/
theorem C60_dimension {q : QText} {w : World} (hg : w.g.keys.Nodup) {n a b c : Str} {i : Nat} (hs : Simple w n) (hi : whom w n = some i) (x y : ℚ) :
    (q.parse a = .ok none → applyRow q [n, a, b, c] w = (w, .error .DimensionalityError)) ∧
    (q.parse a = .ok (some x) → q.parse b = .ok none →
      applyRow q [n, a, b, c] w = (w.setLv i { w.lv i with hfA := x }, .error .DimensionalityError)) ∧
    (q.parse a = .ok (some x) → q.parse b = .ok (some y) → q.parse c = .ok none →
      applyRow q [n, a, b, c] w = (w.setLv i { w.lv i with hfA := x, hfB := y }, .error .DimensionalityError)) := by
  have hget : ∀ l, levelsGet n (w.setLv i l) = (w.setLv i l, .ok (.fine i)) := by
    intro l
    rw [levelsGet_simple (w := w.setLv i l) hg hs]
    refine Prod.ext rfl ?_
    have e1 : (w.setLv i l).lalias = w.lalias := rfl
    have e2 : (w.setLv i l).g = w.g := rfl
    simp only [e1, e2]
    unfold whom at hi
    cases ha : w.lalias.get? n with
    | some r =>
      rw [ha] at hi
      cases r <;> simp at hi
      subst hi; rfl
    | none =>
      rw [ha] at hi
      simp only at hi ⊢
      rw [hi]
  have hself : w.setLv i (w.lv i) = w := by
    unfold World.setLv upd
    congr 1
    funext j
    by_cases h : j = i <;> simp [h]
  have hw := hget (w.lv i)
  rw [hself] at hw
  have hbad : ∀ {k : Const} {t : Str} {v : World}, q.parse t = .ok none → levelsGet n v = (v, .ok (.fine i)) →
      assignConst q k n t v = (v, .error .DimensionalityError) := by
    intro k t v ht hv
    unfold assignConst
    rw [PyM.bind_ok (show PyM.lift (q.parse t) v = (v, .ok none) by rw [ht]; rfl), PyM.bind_ok hv]
    rfl
  have hrow : ∀ {v : World}, applyRowBody q [n, a, b, c] w = (v, .error .DimensionalityError) →
      applyRow q [n, a, b, c] w = (v, .error .DimensionalityError) := by
    intro v h
    unfold applyRow
    rw [h]
  refine ⟨fun h1 => hrow ?_, fun h1 h2 => hrow ?_, fun h1 h2 h3 => hrow ?_⟩
  · rw [applyRowBody_four, PyM.bind_err (hbad h1 hw)]
  · rw [applyRowBody_four, PyM.bind_ok (assign_fine h1 hw), PyM.bind_err (hbad h2 (hget _))]
    rfl
  · rw [applyRowBody_four, PyM.bind_ok (assign_fine h1 hw), PyM.bind_ok (assign_fine h2 (hget _)), setLv_setLv, hbad h3 (hget _), setLv_lv]
    rfl

/-- C60 in full: rows naming no level and no alias change nothing, and an error in a row leaves exactly the rows before
it applied. -/
def C60_full : Prop := ∀ (q : QText) (w : World), Reachable w →
  (∀ row v, Reads q row v → whom w v.name = none → applyRow q row w = (w, .ok ())) ∧
  (∀ pre bad post e, (applyRows q pre w).2 = .ok () → (applyRow q bad (applyRows q pre w).1).2 = .error e →
    (applyRows q (pre ++ bad :: post) w).1 = (applyRows q pre w).1)

/-- A number format for examples: texts `0`, `1`, `2`. -/
def demoQ : QText where
  fmt v := if v = 0 then ['0'] else if v = 1 then ['1'] else ['2']
  parse s := if s = ['0'] then .ok (some 0) else if s = ['1'] then .ok (some 1) else if s = ['2'] then .ok (some 2)
    else if s = ['m'] then .ok none else .error .AttributeError
  defTxt := ['1']
  zeroTxt := ['0']

/-- Two levels `g` and `a` without constants, no nuclear spin. -/
def twoOps : List Op :=
  [.newLevel (demoTerm 'g') 0 0 0 0 0 none, .newLevel (demoTerm 'a') 5 0 2 0 0 none, .addLevel 0 false none,
   .addLevel 1 false none]

/-- A row whose B value is no quantity has already changed A. -/
theorem C60_halfway_fails : ¬ ∀ (q : QText) (w : World), Reachable w → ∀ bad e, (applyRow q bad w).2 = .error e →
    (applyRow q bad w).1 = w := by
  intro h
  have := congrArg (fun w : World => (w.lv 0).hfA)
    (h demoQ _ (demo_reachable (ops := twoOps) (by decide +kernel)) [demoName 'g', ['1'], ['x'], ['1']] .AttributeError
      (by decide +kernel))
  revert this
  decide +kernel

/-- A name containing `F=` that is no level's name stops the file with `ValueError` instead of being skipped. -/
theorem C60_marker_fails : ¬ ∀ (q : QText) (w : World), Reachable w → ∀ row v, Reads q row v → whom w v.name = none →
    (applyRow q row w).2 = .ok () := by
  intro h
  have := h demoQ _ (demo_reachable (ops := twoOps) (by decide +kernel)) [['F', '='], ['0'], ['0'], ['0']] ⟨['F', '='], 0, 0, 0⟩
    ⟨_, _, _, rfl, by decide +kernel, by decide +kernel, by decide +kernel⟩ (by decide +kernel)
  revert this
  decide +kernel

theorem C60_fails : ¬C60_full := by
  intro h
  refine C60_marker_fails fun q w hr row v hv hn => ?_
  rw [(h q w hr).1 row v hv hn]

/-- The hypotheses of the C60 theorems: a level, an unknown name, and the first level again; then a row of three. -/
example : let w := runAll twoOps (emptyAtom 0 0)
    let rows := [[demoName 'g', ['1'], ['2'], ['0']], ["x,y".toList, ['1'], ['1'], ['1']], [demoName 'g', ['2'], ['2'], ['1']]]
    Reachable w ∧
    List.Forall₂ (Reads demoQ) rows [⟨demoName 'g', 1, 2, 0⟩, ⟨"x,y".toList, 1, 1, 1⟩, ⟨demoName 'g', 2, 2, 1⟩] ∧
    Simple w (demoName 'g') ∧ Simple w "x,y".toList ∧ ((applyHf demoQ (Csv.write rows) w).1.lv 0).hfA = 2 ∧
    ((applyHf demoQ (Csv.write rows) w).1.lv 1).hfA = 2 ∧
    Malformed demoQ [demoName 'g', ['1'], ['1']] := by
  refine ⟨demo_reachable (by decide +kernel), ?_, by decide +kernel, by decide +kernel, by decide +kernel, by decide +kernel,
    .inl (by decide)⟩
  refine .cons ⟨_, _, _, rfl, ?_, ?_, ?_⟩ (.cons ⟨_, _, _, rfl, ?_, ?_, ?_⟩ (.cons ⟨_, _, _, rfl, ?_, ?_, ?_⟩ .nil)) <;>
    decide +kernel

example : let w := runAll twoOps (emptyAtom 0 0)
    w.g.keys.Nodup ∧ Simple w (demoName 'g') ∧ whom w (demoName 'g') = some 0 ∧ demoQ.parse ['m'] = .ok none := by decide +kernel

/-! ## C59 -/

/-- The CSV layer: any rows of any texts are read back as written. -/
theorem C59_csv (rows : List (List Str)) : Csv.read (Csv.write rows) = rows := Csv.read_write rows

example : Csv.write [["4f.(2F)\r\nx".toList, "a\"b,c".toList], [[]], []] =
    "\"4f.(2F)\r\nx\",\"a\"\"b,c\"\r\n\"\"\r\n\r\n".toList := by decide +kernel

/-- The text format gives back the numbers it was given, and `def_A` is `d` Hz. -/
structure QExact (q : QText) (d : ℚ) : Prop where
  back : ∀ v, q.parse (q.fmt v) = .ok (some v)
  dflt : q.parse q.defTxt = .ok (some d)

/-- An atom like `w` except that registered levels with A = 0 have A = `d`. -/
def withDefault (d : ℚ) (w : World) : World :=
  { w with lv := fun i =>
      if w.g.lev (w.lname i) = some i ∧ (w.lv i).hfA = 0 then { w.lv i with hfA := d } else w.lv i }

/-- C59 in full: writing the constants and reading them back changes nothing but zero A values. -/
def C59_full : Prop := ∀ (q : QText) (d : ℚ) (w : World), QExact q d → Reachable w →
  applyHf q (generateHf q false w) w = (withDefault d w, .ok ())

theorem mem_levelAttrs_vals {w : World} (hr : Reachable w) {i : Nat} :
    i ∈ w.g.levelAttrs.vals ↔ w.g.lev (w.lname i) = some i := by
  have hg := hr.wf.gok.nodup
  constructor
  · intro h
    obtain ⟨⟨n, j⟩, h1, rfl⟩ := List.mem_map.1 h
    have := Dict.get?_of_mem (Graph.nodup_levelAttrs _ hg) h1
    rw [Graph.get?_levelAttrs _ hg] at this
    rwa [(hr.wf.node n j this).1]
  · intro h
    rw [← Graph.get?_levelAttrs _ hg] at h
    exact List.mem_map.2 ⟨_, Dict.mem_of_get? h, rfl⟩

/-- The numbers of the row written for level `i`. -/
def genVals (d : ℚ) (w : World) (i : Nat) : HfVals :=
  ⟨w.lname i, if (w.lv i).hfA ≠ 0 then (w.lv i).hfA else d, (w.lv i).hfB, (w.lv i).hfC⟩

theorem lastFor_gen {w : World} {d : ℚ} (i : Nat) (l : List Nat) (hl : ∀ j ∈ l, whom w (w.lname j) = some j) :
    lastFor w i (l.map (genVals d w)) = if i ∈ l then some (genVals d w i) else none := by
  have e : (l.map (genVals d w)).filter (fun v => decide (whom w v.name = some i)) =
      (l.filter (fun j => decide (j = i))).map (genVals d w) := by
    induction l with
    | nil => rfl
    | cons j l ih =>
      have hj := hl j (by simp)
      have := ih (fun x hx => hl x (by simp [hx]))
      by_cases h : j = i
      · subst h
        simp [genVals, hj] at this ⊢
        exact this
      · simp [genVals, hj, h] at this ⊢
        exact this
  unfold lastFor
  rw [e]
  by_cases h : i ∈ l
  · rw [if_pos h, List.getLast?_map]
    have hne : l.filter (fun j => decide (j = i)) ≠ [] := by
      intro hn
      have : i ∈ l.filter (fun j => decide (j = i)) := by simp [h]
      rw [hn] at this; simp at this
    obtain ⟨x, hx⟩ := Option.isSome_iff_exists.1 (List.getLast?_isSome.2 hne)
    have hm : x ∈ l.filter (fun j => decide (j = i)) := List.mem_of_getLast? hx
    simp only [List.mem_filter, decide_eq_true_eq] at hm
    rw [hx, hm.2]; rfl
  · rw [if_neg h]
    have : l.filter (fun j => decide (j = i)) = [] := by
      rw [List.filter_eq_nil_iff]
      intro x hx hxi
      simp only [decide_eq_true_eq] at hxi
      subst hxi; exact h hx
    rw [this]; rfl

/-- C59 for atoms in which every level's name stands for that level (no alias takes it) and contains no `F=`, `mF=`,
`mJ=`: commas, quotes, line ends and all other characters are allowed. -/
theorem C59_round_trip_partial {q : QText} {d : ℚ} {w : World} (hq : QExact q d) (hr : Reachable w)
    (hn : ∀ i, w.g.lev (w.lname i) = some i → Simple w (w.lname i) ∧ w.lalias.get? (w.lname i) = none) :
    applyHf q (generateHf q false w) w = (withDefault d w, .ok ()) := by
  have hreg : ∀ i ∈ w.g.levelAttrs.vals, whom w (w.lname i) = some i := by
    intro i hi
    have h := (mem_levelAttrs_vals hr).1 hi
    unfold whom
    rw [(hn i h).2]
    exact h
  have hreads : List.Forall₂ (Reads q) (w.g.levelAttrs.vals.map (hfRow q false w)) (w.g.levelAttrs.vals.map (genVals d w)) := by
    rw [List.forall₂_map_left_iff, List.forall₂_map_right_iff]
    refine List.forall₂_same.2 fun i _ => ⟨_, _, _, rfl, ?_, hq.back _, hq.back _⟩
    simp only [genVals]
    split
    · exact hq.back _
    · exact hq.dflt
  unfold generateHf
  rw [C60_text_partial hr hreads]
  · congr 1
    unfold afterRows withDefault
    congr 1
    funext i
    rw [lastFor_gen i _ hreg]
    by_cases h : w.g.lev (w.lname i) = some i
    · rw [if_pos ((mem_levelAttrs_vals hr).2 h)]
      by_cases h0 : (w.lv i).hfA = 0
      · simp [h, h0, withVals, genVals]
      · simp [h0, withVals, genVals]
    · rw [if_neg (fun hc => h ((mem_levelAttrs_vals hr).1 hc))]
      simp [h, withVals]
  · intro v hv
    obtain ⟨i, hi, rfl⟩ := List.mem_map.1 hv
    exact (hn i ((mem_levelAttrs_vals hr).1 hi)).1

/-- Two levels `g` (A = 0) and `a` (A = 2); `a` is given the alias `g 2S1/2`, the name of the other level. -/
def clashOps : List Op := twoOps ++ [.setAlias (.fine 1) (demoName 'g')]

/-- An exact text format exists: texts of length n for an enumeration of the numbers (used only for the witness). -/
def unaryQ : QText where
  fmt v := (List.replicate (Encodable.encode v) 'i')
  parse s := .ok ((Encodable.decode (α := ℚ) s.length))
  defTxt := List.replicate (Encodable.encode (1 : ℚ)) 'i'
  zeroTxt := List.replicate (Encodable.encode (0 : ℚ)) 'i'

theorem unaryQ_exact : QExact unaryQ 1 := by
  constructor
  · intro v; simp [unaryQ]
  · simp [unaryQ]

/-- With an alias equal to the name of another level, the other level's row is applied to the wrong level. -/
theorem C59_fails : ¬C59_full := by
  intro h
  have hr : Reachable (runAll clashOps (emptyAtom 0 0)) := demo_reachable (by decide +kernel)
  have := h unaryQ 1 _ unaryQ_exact hr
  generalize hw : runAll clashOps (emptyAtom 0 0) = w at *
  have hv : w.g.levelAttrs.vals = [0, 1] := by subst hw; decide +kernel
  have h0 : whom w (w.lname 0) = some 1 := by subst hw; decide +kernel
  have hs0 : Simple w (w.lname 0) := by subst hw; decide +kernel
  have hs1 : Simple w (w.lname 1) := by subst hw; decide +kernel
  have h1 : whom w (w.lname 1) = some 1 := by subst hw; decide +kernel
  have hA : (w.lv 0).hfA = 0 := by subst hw; decide +kernel
  have hreg : w.g.lev (w.lname 0) = some 0 := by subst hw; decide +kernel
  have hreads : List.Forall₂ (Reads unaryQ) ([0, 1].map (hfRow unaryQ false w)) ([0, 1].map (genVals 1 w)) := by
    rw [List.forall₂_map_left_iff, List.forall₂_map_right_iff]
    refine List.forall₂_same.2 fun i _ => ⟨_, _, _, rfl, ?_, unaryQ_exact.back _, unaryQ_exact.back _⟩
    simp only [genVals]
    split
    · exact unaryQ_exact.back _
    · exact unaryQ_exact.dflt
  unfold generateHf at this
  rw [hv, C60_text_partial hr hreads (by
    intro v hv
    simp only [List.map_cons, List.map_nil, List.mem_cons, List.not_mem_nil, or_false] at hv
    rcases hv with rfl | rfl
    · exact hs0
    · exact hs1)] at this
  have e := congrArg (fun p : World × Py Unit => (p.1.lv 0).hfA) this
  simp only [afterRows, withDefault, lastFor, genVals, List.map_cons, List.map_nil, List.filter_cons, h0, h1, hA, hreg] at e
  simp [withVals, hA] at e

/-- The hypotheses of C59 for an atom whose level names contain a comma and a quote. -/
def quoteOps : List Op :=
  [.newLevel { demoTerm 'g' with conf := "a,\"b".toList } 0 0 0 0 0 none, .newLevel (demoTerm 'a') 5 0 2 0 0 none,
   .addLevel 0 false none, .addLevel 1 false none]

example : let w := runAll quoteOps (emptyAtom 0 0)
    QExact unaryQ 1 ∧ Reachable w ∧ w.g.levelAttrs.vals = [0, 1] ∧ Simple w (w.lname 0) ∧ Simple w (w.lname 1) ∧
    w.lalias = [] ∧ w.lname 0 = "a,\"b 2S1/2".toList :=
  ⟨unaryQ_exact, demo_reachable (by decide +kernel), by decide +kernel, by decide +kernel, by decide +kernel,
    by decide +kernel, by decide +kernel⟩

/-- Applying the blank template sets every constant of every level to zero. -/
theorem C59_blank_partial {q : QText} {w : World} (hq : q.parse q.zeroTxt = .ok (some 0)) (hr : Reachable w)
    (hn : ∀ i, w.g.lev (w.lname i) = some i → Simple w (w.lname i) ∧ w.lalias.get? (w.lname i) = none) {i : Nat}
    (hi : w.g.lev (w.lname i) = some i) :
    let l := (applyHf q (generateHf q true w) w).1.lv i
    (applyHf q (generateHf q true w) w).2 = .ok () ∧ l = { w.lv i with hfA := 0, hfB := 0, hfC := 0 } := by
  let z : Nat → HfVals := fun i => ⟨w.lname i, 0, 0, 0⟩
  have hreads : List.Forall₂ (Reads q) (w.g.levelAttrs.vals.map (hfRow q true w)) (w.g.levelAttrs.vals.map z) := by
    rw [List.forall₂_map_left_iff, List.forall₂_map_right_iff]
    exact List.forall₂_same.2 fun i _ => ⟨_, _, _, rfl, hq, hq, hq⟩
  have hs : ∀ v ∈ w.g.levelAttrs.vals.map z, Simple w v.name := by
    intro v hv
    obtain ⟨i, hi, rfl⟩ := List.mem_map.1 hv
    exact (hn i ((mem_levelAttrs_vals hr).1 hi)).1
  unfold generateHf
  rw [C60_text_partial hr hreads hs]
  refine ⟨rfl, ?_⟩
  show withVals (w.lv i) (lastFor w i (w.g.levelAttrs.vals.map z)) = _
  have hm : z i ∈ (w.g.levelAttrs.vals.map z).filter (fun v => decide (whom w v.name = some i)) := by
    refine List.mem_filter.2 ⟨List.mem_map.2 ⟨i, (mem_levelAttrs_vals hr).2 hi, rfl⟩, ?_⟩
    simp only [z, decide_eq_true_eq]
    unfold whom
    rw [(hn i hi).2]; exact hi
  obtain ⟨x, hx⟩ := Option.isSome_iff_exists.1 (List.getLast?_isSome.2 (List.ne_nil_of_mem hm))
  have hxm := List.mem_of_getLast? hx
  obtain ⟨j, _, rfl⟩ := List.mem_map.1 (List.mem_filter.1 hxm).1
  unfold lastFor
  rw [hx]
  rfl

end AtomTk
