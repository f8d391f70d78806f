import Mathlib.Data.List.Chain
import Verif.Model.IO
import Verif.Proofs.Regex
import Verif.Proofs.Text

/-! # C61 (file names) and C62 (second configurations) -/

namespace AtomTk
open Regex

/-! ## C61 -/

/-- C61 in full: the name ends in `.atom`, the extension is added exactly when missing, and saving under the resulting
name keeps it. -/
def C61_full : Prop := ∀ name f : Str,
  dotAtom <:+ saveName name (some f) ∧ saveName name (some f) = (if dotAtom <:+ f then f else f ++ dotAtom) ∧
  saveName name (some (saveName name (some f))) = saveName name (some f)

theorem splitOn1_append {c : Char} {a : Str} (h : c ∉ a) (b : Str) : splitOn1 c (a ++ c :: b) = a :: splitOn1 c b := by
  induction a with
  | nil => simp [splitOn1]
  | cons x xs ih =>
    simp only [List.mem_cons, not_or] at h
    simp [splitOn1, Ne.symm h.1, ih h.2]

theorem splitOn1_ne (c : Char) (s : Str) : splitOn1 c s ≠ [] := by
  cases s with
  | nil => simp [splitOn1]
  | cons x xs =>
    unfold splitOn1
    split
    · simp
    · split <;> simp

theorem pyIndex_one {α} (a b : α) (l : List α) : pyIndex (a :: b :: l) 1 = .ok b := by
  simp [pyIndex]

theorem pyIndex_one_short {α} (a : α) : ∃ e, pyIndex [a] 1 = .error e := by
  exact ⟨_, by simp [pyIndex]; rfl⟩

/-- What the code does: a name is kept exactly when the part between its first and second dot is `atom`. -/
theorem C61_rule (name f : Str) : saveName name (some f) = f ∧ (∃ a b, f = a ++ dotAtom ++ b ∧ '.' ∉ a ∧ (b = [] ∨ ∃ t, b = '.' :: t)) ∨
    saveName name (some f) = f ++ dotAtom ∧ ¬ ∃ a b, f = a ++ dotAtom ++ b ∧ '.' ∉ a ∧ (b = [] ∨ ∃ t, b = '.' :: t) := by
  by_cases h : ∃ a b, f = a ++ dotAtom ++ b ∧ '.' ∉ a ∧ (b = [] ∨ ∃ t, b = '.' :: t)
  · refine .inl ⟨?_, h⟩
    obtain ⟨a, b, rfl, ha, hb⟩ := h
    have hat : '.' ∉ "atom".toList := by decide
    have e : ∃ l, splitOn1 '.' (a ++ dotAtom ++ b) = a :: "atom".toList :: l := by
      have e1 : a ++ dotAtom ++ b = a ++ '.' :: ("atom".toList ++ b) := by simp [dotAtom]
      rw [e1, splitOn1_append ha]
      rcases hb with rfl | ⟨t, rfl⟩
      · rw [List.append_nil, splitOn1_none _ _ hat]; exact ⟨[], rfl⟩
      · rw [splitOn1_append hat]; exact ⟨_, rfl⟩
    obtain ⟨l, e⟩ := e
    simp only [saveName, Option.getD_some, e, pyIndex_one, ne_eq, not_true_eq_false, if_false]
  · refine .inr ⟨?_, h⟩
    by_cases hd : '.' ∈ f
    · obtain ⟨a, b, rfl, ha⟩ := List.eq_append_cons_of_mem hd
      have key : ∃ p l, splitOn1 '.' (a ++ '.' :: b) = a :: p :: l ∧ p ≠ "atom".toList := by
        rw [splitOn1_append ha]
        by_cases hd2 : '.' ∈ b
        · obtain ⟨p, t, rfl, hp⟩ := List.eq_append_cons_of_mem hd2
          rw [splitOn1_append hp]
          refine ⟨p, _, rfl, ?_⟩
          rintro rfl
          exact h ⟨a, '.' :: t, by simp [dotAtom], ha, .inr ⟨t, rfl⟩⟩
        · rw [splitOn1_none _ _ hd2]
          refine ⟨b, _, rfl, ?_⟩
          rintro rfl
          exact h ⟨a, [], by simp [dotAtom], ha, .inl rfl⟩
      obtain ⟨p, l, e, hp⟩ := key
      simp only [saveName, Option.getD_some, e, pyIndex_one, ne_eq, hp, not_false_eq_true, if_true]
    · obtain ⟨e, he⟩ := pyIndex_one_short f
      simp only [saveName, Option.getD_some, splitOn1_none _ _ hd, he]

/-- C61 for names with at most one dot: the result ends in `.atom` and the extension is added exactly when missing. -/
theorem C61_one_dot_partial (name f : Str) (h : f.count '.' ≤ 1) :
    dotAtom <:+ saveName name (some f) ∧ saveName name (some f) = (if dotAtom <:+ f then f else f ++ dotAtom) := by
  rcases C61_rule name f with ⟨h1, a, b, rfl, ha, hb⟩ | ⟨h1, h2⟩
  · have : b = [] := by
      rcases hb with rfl | ⟨t, rfl⟩
      · rfl
      · simp [dotAtom, List.count_append] at h
        omega
    subst this
    rw [h1]
    simp
  · have : ¬ dotAtom <:+ f := by
      rintro ⟨a, rfl⟩
      refine h2 ⟨a, [], by simp, ?_, .inl rfl⟩
      intro hc
      have := List.count_pos_iff.2 hc
      simp only [List.count_append] at h
      have h3 : List.count '.' dotAtom = 1 := by decide
      omega
    rw [h1, if_neg this]
    simp

/-- C61 for names without dots, and for names already written by `save` from such a name: saving again under the
resulting name keeps it. -/
theorem C61_again_partial (name f : Str) (h : '.' ∉ f) :
    saveName name (some f) = f ++ dotAtom ∧ saveName name (some (f ++ dotAtom)) = f ++ dotAtom := by
  constructor
  · rcases C61_rule name f with ⟨_, a, b, rfl, _, _⟩ | ⟨h1, _⟩
    · simp [dotAtom] at h
    · exact h1
  · rcases C61_rule name (f ++ dotAtom) with ⟨h1, _⟩ | ⟨_, h2⟩
    · exact h1
    · exact absurd ⟨f, [], by simp, h, .inl rfl⟩ h2

/-- Without a file name the atom's name is used. -/
theorem C61_default (name : Str) : saveName name none = saveName name (some name) := rfl

/-- `a.b.atom` becomes `a.b.atom.atom`; `x.atom.bak` is kept; `x.txt` grows at every save. -/
theorem C61_fails : ¬C61_full := by
  intro h
  have := (h [] "x.atom.bak".toList).1
  revert this
  decide +kernel

example : saveName [] (some "a.b.atom".toList) = "a.b.atom.atom".toList ∧
    saveName [] (some "x.atom.bak".toList) = "x.atom.bak".toList ∧
    saveName [] (some "x.txt".toList) = "x.txt.atom".toList ∧
    saveName [] (some "x.txt.atom".toList) = "x.txt.atom.atom".toList ∧
    saveName [] (some "../Yb.atom".toList) = "../Yb.atom.atom".toList := by decide +kernel

/-- The hypotheses: `Yb`, `Yb.atom` and `Yb.txt`. -/
example : '.' ∉ "Yb".toList ∧ "Yb.atom".toList.count '.' ≤ 1 ∧ "Yb.txt".toList.count '.' ≤ 1 := by decide

/-! ## C62 -/

/-- A configuration: text, then groups each followed by text. -/
def build : Str → List (Str × Str) → Str
  | t, [] => t
  | t, (g, t') :: r => t ++ '(' :: (g ++ ')' :: build t' r)

/-- A group's contents: not empty, no parentheses and no newline. -/
def GroupOk (g : Str) : Prop := g ≠ [] ∧ '(' ∉ g ∧ ')' ∉ g ∧ '\n' ∉ g

instance (g : Str) : Decidable (GroupOk g) := by unfold GroupOk; infer_instance

/-- A text outside groups: no opening parenthesis and no braces. -/
def OutsideOk (t : Str) : Prop := '(' ∉ t ∧ '{' ∉ t ∧ '}' ∉ t

instance (t : Str) : Decidable (OutsideOk t) := by unfold OutsideOk; infer_instance

theorem group_dot {g : Str} (h : GroupOk g) : ∀ x ∈ g, isDot x = true := by
  intro x hx
  simp only [isDot, bne_iff_ne, ne_eq]
  rintro rfl
  exact h.2.2.2 hx

theorem match_group {g : Str} (h : GroupOk g) (t : Str) :
    match? reGroup ('(' :: (g ++ ')' :: t)) = some (Regex.upd 1 g Caps.none, t) := by
  unfold match? reGroup
  simp only [rcat]
  refine run_seq_head _ _ _ _ _ _ _ (by rw [run_chr]; rfl) ?_
  refine run_lazy_grp 1 isDot g t ')' _ _ _ h.1 (group_dot h) h.2.2.1 ?_ ?_
  · intro x xs c' hx; exact run_chr_ne _ _ _ _ hx
  · rw [run_chr]; rfl

theorem match_no_group {x : Char} (h : x ≠ '(') (xs : Str) : match? reGroup (x :: xs) = none := by
  unfold match? reGroup
  simp only [rcat]
  rw [run_seq_chr_nil _ _ _ _ _ h]; rfl

theorem match_nil : match? reGroup [] = none := rfl

theorem subF_build (rep : Str) (gs : List (Str × Str)) (t : Str) (hg : ∀ p ∈ gs, GroupOk p.1 ∧ '(' ∉ p.2) (ht : '(' ∉ t)
    (f : Nat) (hf : (build t gs).length < f) :
    subF reGroup rep f (build t gs) = t ++ gs.flatMap (fun p => rep ++ p.2) := by
  induction gs generalizing t f with
  | nil =>
    simp only [build] at *
    induction t generalizing f with
    | nil => cases f <;> simp [subF, match_nil]
    | cons x xs ih =>
      simp only [List.mem_cons, not_or] at ht
      cases f with
      | zero => omega
      | succ f =>
        simp only [subF, match_no_group (Ne.symm ht.1)]
        rw [ih ht.2 f (by simpa using hf)]
        simp
  | cons p r ih =>
    obtain ⟨g, t'⟩ := p
    have h1 := hg (g, t') (by simp)
    induction t generalizing f with
    | nil =>
      cases f with
      | zero => omega
      | succ f =>
        simp only [build, List.nil_append] at *
        simp only [subF, match_group h1.1]
        rw [if_pos (by simp; omega), ih t' (fun p hp => hg p (by simp [hp])) h1.2 f (by simp at hf; omega)]
        simp
    | cons x xs ih2 =>
      simp only [List.mem_cons, not_or] at ht
      cases f with
      | zero => omega
      | succ f =>
        have e : build (x :: xs) ((g, t') :: r) = x :: build xs ((g, t') :: r) := by simp [build]
        rw [e] at hf ⊢
        simp only [subF, match_no_group (Ne.symm ht.1)]
        rw [ih2 ht.2 f (by simpa using hf)]
        simp

theorem scanF_build (hs : List Str) (hh : ∀ h ∈ hs, GroupOk h) (f : Nat) (hf : (build [] (hs.map (·, []))).length < f) :
    (scanF reGroup f (build [] (hs.map (·, [])))).map (fun m => (m.1 1).getD []) = hs := by
  induction hs generalizing f with
  | nil => cases f <;> simp [build, scanF, match_nil]
  | cons h r ih =>
    cases f with
    | zero => omega
    | succ f =>
      simp only [List.map_cons, build, List.nil_append] at *
      simp only [scanF, match_group (hh h (by simp))]
      rw [if_pos (by simp; omega), List.map_cons, ih (fun x hx => hh x (by simp [hx])) f (by simp at hf; omega)]
      simp [Regex.upd]

theorem pyFormat_text {t : Str} (ht : '{' ∉ t ∧ '}' ∉ t) (s : Str) (args : List Str) :
    pyFormat (t ++ s) args = (pyFormat s args).map (t ++ ·) := by
  induction t with
  | nil =>
    simp only [List.nil_append]
    cases pyFormat s args <;> rfl
  | cons x xs ih =>
    simp only [List.mem_cons, not_or] at ht
    have e : pyFormat (x :: (xs ++ s)) args = (pyFormat (xs ++ s) args).map (x :: ·) := by
      rw [pyFormat.eq_def]
      split <;> simp_all
    rw [List.cons_append, e, ih ⟨ht.1.2, ht.2.2⟩]
    cases pyFormat s args <;> rfl

theorem pyFormat_group (s a : Str) (args : List Str) :
    pyFormat ("({})".toList ++ s) (a :: args) = (pyFormat s args).map (fun r => '(' :: (a ++ ')' :: r)) := by
  have e : "({})".toList ++ s = ['('] ++ ('{' :: '}' :: ([')'] ++ s)) := rfl
  rw [e, pyFormat_text (by decide)]
  conv_lhs => rw [pyFormat]
  rw [pyFormat_text (by decide)]
  cases pyFormat s args <;> simp [Except.map]

theorem pyFormat_group_nil (s : Str) : pyFormat ("({})".toList ++ s) [] = .error .IndexError := by
  have e : "({})".toList ++ s = ['('] ++ ('{' :: '}' :: ([')'] ++ s)) := rfl
  rw [e, pyFormat_text (by decide)]
  conv_lhs => rw [pyFormat]
  rfl

/-- The groups of a configuration replaced one by one. -/
theorem pyFormat_build (gs : List (Str × Str)) (hs : List Str) (t : Str) (ht : OutsideOk t) (hg : ∀ p ∈ gs, OutsideOk p.2) :
    pyFormat (t ++ gs.flatMap (fun p => "({})".toList ++ p.2)) hs =
      if gs.length ≤ hs.length then .ok (build t (List.zipWith (fun h p => (h, p.2)) hs gs)) else .error .IndexError := by
  induction gs generalizing hs t with
  | nil =>
    rw [pyFormat_text ht.2]
    simp [pyFormat, build, Except.map]
  | cons p r ih =>
    rw [pyFormat_text ht.2, List.flatMap_cons, List.append_assoc]
    cases hs with
    | nil => rw [pyFormat_group_nil]; rfl
    | cons h hs =>
      rw [pyFormat_group, ih hs p.2 (hg p (by simp)) (fun x hx => hg x (by simp [hx]))]
      by_cases hl : r.length ≤ hs.length
      · simp [hl, Except.map, build]
      · simp [hl, Except.map]

theorem run_lazy (p : Char → Bool) (w t : Str) (q : Char) (b : Re) (c : Caps) (r : Caps × Str)
    (hn : w ≠ []) (hw : ∀ x ∈ w, p x = true) (hq : q ∉ w)
    (hb : ∀ x xs c', x ≠ q → run b (x :: xs) c' = []) (hr : (run b (q :: t) c).head? = some r) :
    (run (.seq (plusLazy p) b) (w ++ q :: t) c).head? = some r := by
  cases w with
  | nil => exact absurd rfl hn
  | cons a l =>
    simp only [List.mem_cons, not_or] at hq
    have e : run (.seq (plusLazy p) b) (a :: l ++ q :: t) c = (repRun true p (l ++ q :: t)).flatMap (fun t' => run b t' c) := by
      simp only [run, plusLazy, List.cons_append, hw a (by simp), if_true, List.flatMap_cons, List.flatMap_nil,
        List.append_nil, List.flatMap_map]
    rw [e]
    exact flatMap_lazy_head p l t q _ r (fun x hx => hw x (by simp [hx])) hq.2 (fun x xs hx => hb x xs _ hx) hr

theorem match_adjacent {g h : Str} (hg : GroupOk g) (hh : GroupOk h) (t : Str) :
    (match? reAdjacent ('(' :: (g ++ ')' :: '(' :: (h ++ ')' :: t)))).isSome = true := by
  have : match? reAdjacent ('(' :: (g ++ ')' :: '(' :: (h ++ ')' :: t))) = some (Caps.none, t) := by
    unfold match? reAdjacent
    simp only [rcat]
    refine run_seq_head _ _ _ _ _ _ _ (by rw [run_chr]; rfl) ?_
    refine run_lazy _ _ _ _ _ _ _ hg.1 (group_dot hg) hg.2.2.1 (fun x xs c' hx => run_seq_chr_nil _ _ _ _ _ hx) ?_
    refine run_seq_head _ _ _ _ _ _ _ (by rw [run_chr]; rfl) ?_
    refine run_seq_head _ _ _ _ _ _ _ (by rw [run_chr]; rfl) ?_
    refine run_lazy _ _ _ _ _ _ _ hh.1 (group_dot hh) hh.2.2.1 (fun x xs c' hx => run_chr_ne _ _ _ _ hx) ?_
    rw [run_chr]; rfl
  rw [this]; rfl

/-- C62, what happens: with at least as many groups in `c1` as in `c0` the groups of `c0` are replaced in order and the
text between them is kept; with fewer, `IndexError`. -/
theorem C62_rule (t : Str) (gs : List (Str × Str)) (hs : List Str) (ht : OutsideOk t)
    (hg : ∀ p ∈ gs, GroupOk p.1 ∧ OutsideOk p.2) (hh : ∀ h ∈ hs, GroupOk h) (h2 : 2 ≤ hs.length) :
    reconstituteConf (build t gs) (some (build [] (hs.map (·, [])))) =
      if gs.length ≤ hs.length then .ok (some (build t (List.zipWith (fun h p => (h, p.2)) hs gs)))
      else .error .IndexError := by
  have hadj : (match? reAdjacent (build [] (hs.map (·, [])))).isSome = true := by
    match hs, h2 with
    | a :: b :: r, _ => exact match_adjacent (hh a (by simp)) (hh b (by simp)) _
  have hfind : (findall 1 reGroup (build [] (hs.map (·, [])))).map (fun g => g.headD []) = hs := by
    have := scanF_build hs hh (List.length (build [] (hs.map (·, []))) + 1) (by omega)
    unfold findall
    rw [List.map_map]
    conv_rhs => rw [← this]
    apply List.map_congr_left
    intro m _
    simp [List.range_succ]
  simp only [reconstituteConf, hadj, if_true, hfind, reSub]
  rw [subF_build _ _ _ (fun p hp => ⟨(hg p hp).1, (hg p hp).2.1⟩) ht.1 _ (by omega),
    pyFormat_build _ _ _ ht (fun p hp => (hg p hp).2)]
  split <;> rfl

/-- C62 for the same number of groups on both sides: the text outside parentheses is that of `c0` and the groups are
those of `c1`. -/
theorem C62_groups_partial (t : Str) (gs : List (Str × Str)) (hs : List Str) (ht : OutsideOk t)
    (hg : ∀ p ∈ gs, GroupOk p.1 ∧ OutsideOk p.2) (hh : ∀ h ∈ hs, GroupOk h) (h2 : 2 ≤ hs.length)
    (hl : gs.length = hs.length) : ∃ rs : List (Str × Str),
    reconstituteConf (build t gs) (some (build [] (hs.map (·, [])))) = .ok (some (build t rs)) ∧
      rs.map Prod.fst = hs ∧ rs.map Prod.snd = gs.map Prod.snd := by
  refine ⟨List.zipWith (fun h p => (h, p.2)) hs gs, ?_, ?_, ?_⟩
  · rw [C62_rule t gs hs ht hg hh h2, if_pos (by omega)]
  · rw [List.map_zipWith]
    simp only
    clear hg hh h2 ht
    induction hs generalizing gs with
    | nil => rfl
    | cons h r ih =>
      cases gs with
      | nil => simp at hl
      | cons p q => simpa using ih q (by simpa using hl)
  · rw [List.map_zipWith]
    simp only
    clear hg hh h2 ht
    induction hs generalizing gs with
    | nil =>
      cases gs with
      | nil => rfl
      | cons p q => simp at hl
    | cons h r ih =>
      cases gs with
      | nil => simp at hl
      | cons p q => simpa using ih q (by simpa using hl)

/-- C62 in full: whenever `c1` consists of at least two adjacent groups, the text outside parentheses of the result is
that of `c0`. -/
def C62_full : Prop := ∀ (t : Str) (gs : List (Str × Str)) (hs : List Str), '(' ∉ t → (∀ p ∈ gs, GroupOk p.1 ∧ '(' ∉ p.2) →
  (∀ h ∈ hs, GroupOk h) → 2 ≤ hs.length →
  ∃ rs : List (Str × Str), reconstituteConf (build t gs) (some (build [] (hs.map (·, [])))) = .ok (some (build t rs)) ∧
    rs.map Prod.snd = gs.map Prod.snd

/-- `a(b)(c)(d)` with `(x)(y)` raises `IndexError`, which ends the loading of the whole table. -/
theorem C62_fails : ¬C62_full := by
  intro h
  obtain ⟨rs, h1, _⟩ := h ['a'] [(['b'], []), (['c'], []), (['d'], [])] [['x'], ['y']] (by decide) (by decide) (by decide) (by decide)
  rw [C62_rule _ _ _ (by decide) (by decide) (by decide) (by decide), if_neg (by decide)] at h1
  simp at h1

/-- The example of the code's comment, and its hypotheses. -/
example : reconstituteConf "4f13.(2F*<7/2>).5d2.(3P)".toList (some "(2F*<7/2>)(3F)".toList) =
    .ok (some "4f13.(2F*<7/2>).5d2.(3F)".toList) := by decide +kernel

example : build "4f13.".toList [("2F*<7/2>".toList, ".5d2.".toList), ("3P".toList, [])] = "4f13.(2F*<7/2>).5d2.(3P)".toList ∧
    build [] (["2F*<7/2>".toList, "3F".toList].map (·, [])) = "(2F*<7/2>)(3F)".toList ∧
    OutsideOk "4f13.".toList ∧ OutsideOk ".5d2.".toList ∧ GroupOk "2F*<7/2>".toList ∧ GroupOk "3P".toList := by
  decide +kernel

/-- Anything that is not a text gives `None`, and a `c1` not starting with a parenthesis is returned as it is. -/
theorem C62_other (c0 : Str) : reconstituteConf c0 none = .ok none ∧
    ∀ x xs, x ≠ '(' → reconstituteConf c0 (some (x :: xs)) = .ok (some (x :: xs)) := by
  refine ⟨rfl, fun x xs h => ?_⟩
  have h1 : match? reAdjacent (x :: xs) = none := by
    unfold match? reAdjacent
    simp only [rcat]
    rw [run_seq_chr_nil _ _ _ _ _ h]; rfl
  have h2 : match? reApart (x :: xs) = none := by
    unfold match? reApart
    simp only [rcat]
    rw [run_seq_chr_nil _ _ _ _ _ h]; rfl
  simp [reconstituteConf, h1, h2]

/-! ### Groups with text between them -/

theorem repRun_complete (l : Bool) (p : Char → Bool) (w t : Str) (hw : ∀ x ∈ w, p x = true) : t ∈ repRun l p (w ++ t) := by
  induction w with
  | nil =>
    cases t with
    | nil => simp [repRun]
    | cons x xs =>
      simp only [List.nil_append, repRun]
      split
      · split <;> simp
      · simp
  | cons a w ih =>
    have ih := ih fun x hx => hw x (by simp [hx])
    simp only [List.cons_append, repRun, hw a (by simp), if_true]
    split
    · exact List.mem_cons_of_mem _ ih
    · exact List.mem_append_left _ ih

theorem mem_seq {a b : Re} {s t u : Str} {c : Caps} (h1 : (c, t) ∈ run a s c) (h2 : (c, u) ∈ run b t c) : (c, u) ∈ run (.seq a b) s c :=
  List.mem_flatMap.2 ⟨_, h1, h2⟩

theorem mem_chr (q : Char) (t : Str) (c : Caps) : (c, t) ∈ run (chr q) (q :: t) c := by
  rw [run_chr]; exact List.mem_singleton.2 rfl

theorem mem_plus (l : Bool) (p : Char → Bool) (w t : Str) (c : Caps) (hn : w ≠ []) (hw : ∀ x ∈ w, p x = true) :
    (c, t) ∈ run (.seq (.cls p) (.rep l p)) (w ++ t) c := by
  cases w with
  | nil => exact absurd rfl hn
  | cons a w =>
    refine mem_seq (t := w ++ t) (by simp [run, hw a (by simp)]) ?_
    exact List.mem_map.2 ⟨t, repRun_complete l p w t fun x hx => hw x (by simp [hx]), rfl⟩

/-- No closing parenthesis directly before an opening one. -/
def NoPair (s : Str) : Prop := List.IsChain (fun a b => ¬(a = ')' ∧ b = '(')) s

theorem noPair_of {s : Str} (h : '(' ∉ s) (x : Char) : NoPair (x :: s) := by
  unfold NoPair
  induction s generalizing x with
  | nil => simp
  | cons y s ih =>
    simp only [List.mem_cons, not_or] at h
    rw [List.isChain_cons_cons]
    exact ⟨fun hh => h.1 hh.2.symm, ih h.2 y⟩

theorem match_adjacent_none {s : Str} (h : NoPair s) : match? reAdjacent s = none := by
  unfold match?
  rw [run_nil_of_lang]
  · rfl
  · rintro w t rfl hl
    simp only [reAdjacent, rcat, Lang, chr, plusLazy] at hl
    obtain ⟨u1, v1, rfl, ⟨x1, rfl, -⟩, u2, v2, rfl, -, u3, v3, rfl, ⟨x3, rfl, e3⟩, u4, v4, rfl, ⟨x4, rfl, e4⟩, -⟩ := hl
    simp only [beq_iff_eq] at e3 e4
    subst e3 e4
    have : [')', '('] <:+: [x1] ++ (u2 ++ ([')'] ++ (['('] ++ v4))) ++ t := ⟨[x1] ++ u2, v4 ++ t, by simp⟩
    have := List.IsChain.infix h this
    rw [List.isChain_cons_cons] at this
    exact this.1 ⟨rfl, rfl⟩

theorem split_head (t r : Str) (h : '(' ∉ t) : (splitOn1 '(' (t ++ '(' :: r)).headD [] = t ∧ (splitOn1 '(' t).headD [] = t := by
  induction t with
  | nil => simp [splitOn1]
  | cons x t ih =>
    simp only [List.mem_cons, not_or] at h
    obtain ⟨ih1, ih2⟩ := ih h.2
    simp only [List.cons_append, splitOn1, if_neg (Ne.symm h.1)]
    constructor
    · split
      · rename_i hh
        rw [hh] at ih1
        simpa using ih1
      · rename_i hh
        rw [hh] at ih1
        simpa using ih1
    · split
      · rename_i hh
        rw [hh] at ih2
        simpa using ih2
      · rename_i hh
        rw [hh] at ih2
        simpa using ih2

/-- C62 for a `c1` with text between its two groups: what stands before the first group of `c0` is put in front of it. -/
theorem C62_front (t : Str) (gs : List (Str × Str)) (g m h : Str) (ht : '(' ∉ t) (hg : GroupOk g) (hh : GroupOk h) (hm : GroupOk m) :
    reconstituteConf (build t gs) (some (build [] [(g, m), (h, [])])) = .ok (some (build t [(g, m), (h, [])])) := by
  have hc : build [] [(g, m), (h, [])] = '(' :: (g ++ ')' :: m) ++ '(' :: (h ++ [')']) := by simp [build]
  have h1 : match? reAdjacent (build [] [(g, m), (h, [])]) = none := by
    apply match_adjacent_none
    rw [hc]
    unfold NoPair
    rw [List.isChain_append]
    refine ⟨noPair_of ?_ _, noPair_of ?_ _, ?_⟩
    · simp only [List.mem_append, List.mem_cons, not_or]
      exact ⟨hg.2.1, by decide, hm.2.1⟩
    · simp only [List.mem_append, List.mem_cons, List.not_mem_nil, or_false, not_or]
      exact ⟨hh.2.1, by decide⟩
    · intro x hx y hy
      rintro ⟨rfl, -⟩
      have hlast : ('(' :: (g ++ ')' :: m)).getLast? = m.getLast? := by
        rw [show '(' :: (g ++ ')' :: m) = ('(' :: (g ++ [')'])) ++ m by simp, List.getLast?_append_of_ne_nil _ hm.1]
      rw [hlast] at hx
      exact hm.2.2.1 (List.mem_of_getLast? hx)
  have h2 : (match? reApart (build [] [(g, m), (h, [])])).isSome = true := by
    have : (Caps.none, []) ∈ run reApart (build [] [(g, m), (h, [])]) Caps.none := by
      simp only [reApart, rcat, build, List.nil_append]
      refine mem_seq (mem_chr _ _ _) (mem_seq (mem_plus true isDot g _ _ hg.1 (group_dot hg)) (mem_seq (mem_chr _ _ _)
        (mem_seq (mem_plus false isDot m _ _ hm.1 (group_dot hm)) (mem_seq (mem_chr _ _ _)
          (mem_seq (mem_plus true isDot h _ _ hh.1 (group_dot hh)) (mem_chr _ _ _))))))
    unfold match?
    cases hr : run reApart (build [] [(g, m), (h, [])]) Caps.none with
    | nil => rw [hr] at this; cases this
    | cons a l => rfl
  have h3 : (splitOn1 '(' (build t gs)).headD [] = t := by
    cases gs with
    | nil => exact (split_head t [] ht).2
    | cons p gs =>
      simp only [build]
      exact (split_head t _ ht).1
  simp only [reconstituteConf, h1, h2, h3]
  simp [build]

example : reconstituteConf "4f13.(2F*<7/2>).5d2.(3P)".toList (some "(2F*<5/2>).5d2.(3F)".toList) =
      .ok (some "4f13.(2F*<5/2>).5d2.(3F)".toList) ∧ GroupOk ".5d2.".toList := by
  refine ⟨?_, by decide⟩
  exact C62_front "4f13.".toList [("2F*<7/2>".toList, ".5d2.".toList), ("3P".toList, [])] "2F*<5/2>".toList ".5d2.".toList "3F".toList
    (by decide) (by decide) (by decide) (by decide)

end AtomTk
