import Verif.Props.Container
import Verif.Props.Energies

/-! # C28, C29, C42, C46, C47, C49, C71, C72: the transitions of an atom (fine-structure keys) -/

namespace AtomTk
open Util World

/-! ## Lookups by plain names -/

/-- The key is a fine-structure spelling and not an alias. -/
def Plain (w : World) (n : Str) : Prop := plainKey n = true ∧ w.lalias.get? n = none

instance (w : World) (n : Str) : Decidable (Plain w n) := by unfold Plain; infer_instance

theorem plainKey_iff (n : Str) :
    plainKey n = true ↔ isIn Term.mfEq n = false ∧ isIn mJeq n = false ∧ isIn Term.fEq n = false := by
  unfold plainKey
  simp [Bool.and_eq_true, and_assoc]

theorem levelsGet_plainKey {w : World} {n : Str} (h : plainKey n = true) :
    levelsGet n w = (w, match w.lalias.get? n with
      | some r => .ok r
      | none => match w.g.levelAttrs.get? n with
        | some i => .ok (.fine i)
        | none => .error .KeyError) := by
  obtain ⟨h1, h2, h3⟩ := (plainKey_iff n).1 h
  unfold levelsGet
  rw [PyM.bind_ok (show PyM.get w = (w, .ok w) from rfl)]
  cases ha : w.lalias.get? n with
  | some r => simp only; rfl
  | none =>
    simp only [h1, h2, h3, Bool.false_eq_true, if_false]
    cases hg : w.g.levelAttrs.get? n with
    | some i =>
      have : w.g.levelAttrs.getE n = .ok i := Dict.getE_ok.2 hg
      rw [this]; rfl
    | none => rw [Dict.getE_err hg]; rfl

theorem levelsGet_plain {w : World} (hg : w.g.keys.Nodup) {n : Str} {i : Nat} (h : Plain w n) (hl : w.g.lev n = some i) :
    levelsGet n w = (w, .ok (.fine i)) := by
  rw [levelsGet_plainKey h.1, h.2, Graph.get?_levelAttrs _ hg, hl]

/-- The lookup of a pair in terms of the two level lookups. -/
theorem transGet_plainKey {w : World} {a b : Str} (ha : plainKey a = true) (hb : plainKey b = true) :
    transGet a b w = (w, do
      let ra ← (levelsGet a w).2
      let rb ← (levelsGet b w).2
      let ea ← w.refHz ra
      let eb ← w.refHz rb
      if ea > eb then w.g.edges.getE (b, a) else w.g.edges.getE (a, b)) := by
  unfold transGet
  have e1 : levelsGet a w = (w, (levelsGet a w).2) := by rw [levelsGet_plainKey ha]
  have e2 : levelsGet b w = (w, (levelsGet b w).2) := by rw [levelsGet_plainKey hb]
  generalize (levelsGet a w).2 = xa at *
  generalize (levelsGet b w).2 = xb at *
  cases xa with
  | error e => rw [PyM.bind_err e1]; rfl
  | ok ra =>
    rw [PyM.bind_ok e1]
    cases xb with
    | error e => rw [PyM.bind_err e2]; rfl
    | ok rb =>
      rw [PyM.bind_ok e2, PyM.bind_ok (show PyM.get w = (w, .ok w) from rfl)]
      cases h1 : w.refHz ra with
      | error e => simp only [bind, PyM.bind', PyM.lift, Except.bind, h1]
      | ok ea =>
        cases h2 : w.refHz rb with
        | error e => simp only [bind, PyM.bind', PyM.lift, Except.bind, h1, h2]
        | ok eb =>
          simp only [bind, PyM.bind', PyM.lift, Except.bind, h1, h2, ha, if_true]
          split <;> rfl

theorem transGet_fst {w : World} {a b : Str} (ha : plainKey a = true) (hb : plainKey b = true) :
    (transGet a b w).1 = w := by rw [transGet_plainKey ha hb]

/-! ## C28 -/

/-- The full claim for keys of fine-structure levels. -/
def C28_full : Prop := ∀ w a b, Reachable w → plainKey a = true → plainKey b = true →
  ∀ t, transGet a b w = (w, .ok t) ↔ transGet b a w = (w, .ok t)

/-- The order of the key does not matter when the energies of the two levels differ. -/
theorem C28_partial (w : World) (a b : Str) (ha : plainKey a = true) (hb : plainKey b = true)
    (hne : ∀ ra rb ea eb, (levelsGet a w).2 = .ok ra → (levelsGet b w).2 = .ok rb → w.refHz ra = .ok ea →
      w.refHz rb = .ok eb → ea ≠ eb) (t : Nat) : transGet a b w = (w, .ok t) ↔ transGet b a w = (w, .ok t) := by
  rw [transGet_plainKey ha hb, transGet_plainKey hb ha]
  simp only [Prod.mk.injEq, true_and]
  cases h1 : (levelsGet a w).2 with
  | error e => cases h2 : (levelsGet b w).2 with
    | error e' => simp [bind, Except.bind]
    | ok rb => simp [bind, Except.bind]
  | ok ra =>
    cases h2 : (levelsGet b w).2 with
    | error e => simp [bind, Except.bind]
    | ok rb =>
      cases h3 : w.refHz ra with
      | error e => cases h4 : w.refHz rb <;> simp [bind, Except.bind, h3, h4]
      | ok ea =>
        cases h4 : w.refHz rb with
        | error e => simp [bind, Except.bind, h3, h4]
        | ok eb =>
          have := hne ra rb ea eb h1 h2 h3 h4
          simp only [bind, Except.bind, h3, h4]
          rcases lt_or_gt_of_ne this with h | h
          · rw [if_neg (not_lt.2 h.le), if_pos h]
          · rw [if_pos h, if_neg (not_lt.2 h.le)]

/-- Two levels at the same energy: only one order of the key works. -/
theorem C28_fails : ¬C28_full := by
  intro h
  let ops := threeLevels 5 5 9 ++ [.newTrans 0 1 none .none none]
  have := (h (runAll ops (emptyAtom 0 0)) (demoName 'g') (demoName 'a') (demo_reachable (by decide +kernel))
    (by decide +kernel) (by decide +kernel) 0).1 (Prod.ext (transGet_fst (by decide +kernel) (by decide +kernel)) (by decide +kernel))
  have h2 := congrArg Prod.snd this
  revert h2
  decide +kernel

example : let w := runAll (threeLevels 0 5 9 ++ [.newTrans 0 1 none .none none]) (emptyAtom 0 0)
    (transGet (demoName 'g') (demoName 'a') w).2 = .ok 0 ∧ (transGet (demoName 'a') (demoName 'g') w).2 = .ok 0 := by
  decide +kernel

/-! ## C29 -/

theorem before_iff (g : Graph) (u v : Str) : g.Before u v ↔ g.keys.idxOf u ≤ g.keys.idxOf v := by
  unfold Graph.Before
  generalize g.keys = l
  induction l with
  | nil => simp
  | cons x l ih =>
    by_cases hx : x = u
    · subst hx; simp
    · rw [Graph.takeWhile_cons_ne _ _ _ hx, List.idxOf_cons_ne _ hx]
      by_cases hv : x = v
      · subst hv; simp
      · rw [List.idxOf_cons_ne _ hv]
        simp only [List.mem_cons, not_or, ih, Ne.symm hv, not_false_eq_true, true_and]
        omega

theorem Reachable.names {w : World} (hr : Reachable w) : w.levelNames = w.g.keys := by
  show w.g.levelAttrs.keys = _
  rw [Graph.keys_levelAttrs w.g hr.wf.gok.nodup, List.filter_eq_self]
  intro n hn
  obtain ⟨i, hi⟩ := hr.solid n hn
  simp [hi]

/-- The full claim: a transition between two levels of the atom is found under their names. -/
def C29_full : Prop := ∀ w a b ia ib t, Reachable w → Plain w a → Plain w b → w.g.lev a = some ia → w.g.lev b = some ib →
  w.g.adj a b = some t → transGet a b w = (w, .ok t)

/-- A transition is found exactly when the lower of the two levels was added to the atom before the higher one; with
equal energies, when the first named was added first. -/
theorem C29_found_partial (w : World) (a b : Str) (ia ib t : Nat) (hr : Reachable w) (ha : Plain w a) (hb : Plain w b)
    (hla : w.g.lev a = some ia) (hlb : w.g.lev b = some ib) (hadj : w.g.adj a b = some t) :
    transGet a b w = (w, .ok t) ↔
      (if w.eHz ia > w.eHz ib then w.levelNames.idxOf b ≤ w.levelNames.idxOf a
       else w.levelNames.idxOf a ≤ w.levelNames.idxOf b) := by
  have hn := hr.wf.gok.nodup
  rw [transGet_plainKey ha.1 hb.1, levelsGet_plain hn ha hla, levelsGet_plain hn hb hlb, hr.names]
  simp only [Prod.mk.injEq, true_and, bind, Except.bind, refHz]
  have hadj' : w.g.adj b a = some t := by rw [hr.wf.gok.symm]; exact hadj
  by_cases h : w.eHz ia > w.eHz ib
  · rw [if_pos h, if_pos h, Dict.getE_ok, Graph.get?_edges hr.wf.gok, hadj', ← before_iff]
    split <;> simp_all
  · rw [if_neg h, if_neg h, Dict.getE_ok, Graph.get?_edges hr.wf.gok, hadj, ← before_iff]
    split <;> simp_all

/-- C29: whatever is returned connects exactly the levels named. -/
theorem C29_connects (w w' : World) (a b : Str) (t : Nat) (hr : Reachable w) (ha : plainKey a = true)
    (hb : plainKey b = true) (h : transGet a b w = (w', .ok t)) :
    (a = w.lname (w.tr t).e1 ∧ b = w.lname (w.tr t).e2) ∨ (a = w.lname (w.tr t).e2 ∧ b = w.lname (w.tr t).e1) := by
  rw [transGet_plainKey ha hb] at h
  have h2 := (Prod.mk.inj h).2
  have key : w.g.adj a b = some t := by
    cases h1 : (levelsGet a w).2 with
    | error e => rw [h1] at h2; simp [bind, Except.bind] at h2
    | ok ra =>
      cases h3 : (levelsGet b w).2 with
      | error e => rw [h1, h3] at h2; simp [bind, Except.bind] at h2
      | ok rb =>
        cases h4 : w.refHz ra with
        | error e => rw [h1, h3] at h2; simp [bind, Except.bind, h4] at h2
        | ok ea =>
          cases h5 : w.refHz rb with
          | error e => rw [h1, h3] at h2; simp [bind, Except.bind, h4, h5] at h2
          | ok eb =>
            rw [h1, h3] at h2
            simp only [bind, Except.bind, h4, h5] at h2
            split at h2
            · rw [Dict.getE_ok, Graph.get?_edges hr.wf.gok] at h2
              split at h2
              · rw [hr.wf.gok.symm]; exact h2
              · simp at h2
            · rw [Dict.getE_ok, Graph.get?_edges hr.wf.gok] at h2
              split at h2
              · exact h2
              · simp at h2
  obtain ⟨_, _, _, _, h5, h6⟩ := hr.wf.edge _ _ _ key
  rcases h6 with ⟨e1, e2⟩ | ⟨e1, e2⟩ <;> rw [e1, e2] <;> tauto

/-- When the upper level was added first the lookup raises `KeyError`. -/
theorem C29_fails : ¬C29_full := by
  intro h
  let ops := threeLevels 5 1 9 ++ [.newTrans 0 1 none .none none]
  have := h (runAll ops (emptyAtom 0 0)) (demoName 'g') (demoName 'a') 0 1 0 (demo_reachable (by decide +kernel))
    (by decide +kernel) (by decide +kernel) (by decide +kernel) (by decide +kernel) (by decide +kernel)
  have h2 := congrArg Prod.snd this
  revert h2
  decide +kernel

example : let w := runAll (threeLevels 0 5 9 ++ [.newTrans 0 1 none .none none]) (emptyAtom 0 0)
    Reachable w ∧ Plain w (demoName 'g') ∧ Plain w (demoName 'a') ∧ w.g.lev (demoName 'g') = some 0 ∧
    w.g.lev (demoName 'a') = some 1 ∧ w.g.adj (demoName 'g') (demoName 'a') = some 0 :=
  ⟨demo_reachable (by decide +kernel), by decide +kernel, by decide +kernel, by decide +kernel, by decide +kernel,
    by decide +kernel⟩

/-! ## C72 -/

/-- The full claim: integers name the levels by energy rank. -/
def C72_full : Prop := ∀ w (n m : Int) i j t, Reachable w → levelsGetInt n w = .ok i → levelsGetInt m w = .ok j →
  w.g.adj (w.lname i) (w.lname j) = some t → (transGetInt n m w).2 = .ok t

/-- Integer keys never work (atom_helpers.py:124 asks whether an integer contains a text). -/
theorem C72_never (w : World) (n m : Int) (t : Nat) : (transGetInt n m w).2 ≠ .ok t := by
  unfold transGetInt
  split <;> simp

/-- C72: a pair of ranks both in range raises `TypeError`, otherwise `IndexError`; the atom is unchanged. -/
theorem C72_raises (w : World) (n m : Int) :
    transGetInt n m w = (w, .error (if (-(w.sortedLevels.length : ℤ) ≤ n ∧ n < w.sortedLevels.length) ∧
      -(w.sortedLevels.length : ℤ) ≤ m ∧ m < w.sortedLevels.length then .TypeError else .IndexError)) := by
  have key : ∀ k : Int, (∃ i, levelsGetInt k w = .ok i ∧ -(w.sortedLevels.length : ℤ) ≤ k ∧ k < w.sortedLevels.length) ∨
      (levelsGetInt k w = .error .IndexError ∧ ¬(-(w.sortedLevels.length : ℤ) ≤ k ∧ k < w.sortedLevels.length)) := by
    intro k
    unfold levelsGetInt pyIndex
    generalize w.sortedLevels = l
    have hj : ∃ j : Int, (if k < 0 then k + (l.length : ℤ) else k) = j ∧ ((0 ≤ j ∧ j < l.length) ↔ (-(l.length : ℤ) ≤ k ∧ k < l.length)) :=
      ⟨_, rfl, by split <;> omega⟩
    obtain ⟨j, e, hj⟩ := hj
    simp only [e, ← hj]
    by_cases h : j < 0
    · rw [if_pos h]
      exact .inr ⟨rfl, by omega⟩
    · rw [if_neg h]
      by_cases hb : j.toNat < l.length
      · rw [List.getElem?_eq_getElem hb]
        exact .inl ⟨_, rfl, by omega⟩
      · rw [List.getElem?_eq_none (by omega)]
        exact .inr ⟨rfl, by omega⟩
  unfold transGetInt
  rcases key n with ⟨i, h1, h2⟩ | ⟨h1, h2⟩ <;> rcases key m with ⟨j, g1, g2⟩ | ⟨g1, g2⟩
  · rw [h1, g1, if_pos ⟨h2, g2⟩]
  · rw [h1, g1, if_neg (fun h => g2 h.2)]
  · rw [h1, g1, if_neg (fun h => h2 h.1)]
  · rw [h1, g1, if_neg (fun h => h2 h.1)]

example : transGetInt 0 (-1) (runAll (threeLevels 0 5 9) (emptyAtom 0 0)) = (runAll (threeLevels 0 5 9) (emptyAtom 0 0), .error .TypeError) ∧
    transGetInt 0 3 (runAll (threeLevels 0 5 9) (emptyAtom 0 0)) = (runAll (threeLevels 0 5 9) (emptyAtom 0 0), .error .IndexError) := by
  have h : (runAll (threeLevels 0 5 9) (emptyAtom 0 0)).sortedLevels.length = 3 := by decide +kernel
  rw [C72_raises, C72_raises, h]
  exact ⟨rfl, rfl⟩

theorem C72_fails : ¬C72_full := by
  intro h
  let ops := threeLevels 0 5 9 ++ [.newTrans 0 1 none .none none]
  exact C72_never _ _ _ _ (h (runAll ops (emptyAtom 0 0)) 0 1 0 1 0 (demo_reachable (by decide +kernel))
    (by decide +kernel) (by decide +kernel) (by decide +kernel))

/-! ## C42 -/

/-- The full claim, including access by alias. -/
def C42_full : Prop := ∀ w key i, Reachable w → (levelsGet key w).2 = .ok (.fine i) → w.g.lev (w.lname i) = some i →
  ∃ w' d, linkedLevels key w = (w', .ok d) ∧
    ∀ n t, d.get? n = some t ↔ n ≠ w.lname i ∧ w.g.adj (w.lname i) n = some t

theorem linkedLevels_plain {w : World} (hn : w.g.keys.Nodup) {key : Str} {i : Nat} (h : Plain w key)
    (hl : w.g.lev key = some i) :
    ∃ d, linkedLevels key w = (w, .ok d) ∧ ∀ n, d.get? n = if n ≠ key then w.g.adj key n else none := by
  have hg : ∃ r, w.g.get? key = some r := (Dict.get?_isSome _ _).2 (Graph.mem_of_lev hl)
  obtain ⟨r, hr⟩ := hg
  refine ⟨r.nbrs.filter (fun p => p.1 ≠ key), ?_, fun n => ?_⟩
  · unfold linkedLevels
    rw [PyM.bind_ok (levelsGet_plain hn h hl), PyM.bind_ok (show PyM.get w = (w, .ok w) from rfl)]
    simp only [hr]
    rfl
  · rw [Dict.get?_filter (fun x => decide (x ≠ key))]
    simp only [Graph.adj, hr, decide_eq_true_eq]

/-- C42 by name: exactly the other levels sharing a transition with the level, with that transition. -/
theorem C42_neighbours_partial (w : World) (key : Str) (i : Nat) (hr : Reachable w) (h : Plain w key)
    (hl : w.g.lev key = some i) :
    ∃ d, linkedLevels key w = (w, .ok d) ∧ d.get? key = none ∧
      (∀ n t, d.get? n = some t ↔ n ≠ key ∧ w.g.adj key n = some t) ∧
      (∀ n t, d.get? n = some t → ∃ j, w.g.lev n = some j ∧
        (((w.tr t).e1 = i ∧ (w.tr t).e2 = j) ∨ ((w.tr t).e1 = j ∧ (w.tr t).e2 = i))) := by
  obtain ⟨d, h1, h2⟩ := linkedLevels_plain hr.wf.gok.nodup h hl
  refine ⟨d, h1, by rw [h2]; simp, fun n t => ?_, fun n t ht => ?_⟩
  · rw [h2]; split <;> simp_all
  · have hadj : w.g.adj key n = some t := by
      rw [h2] at ht; split at ht
      · exact ht
      · simp at ht
    obtain ⟨_, _, h3, h4, h5, h6⟩ := hr.wf.edge _ _ _ hadj
    rcases h5 with ⟨e1, e2⟩ | ⟨e1, e2⟩
    · rw [e1, h3] at hl
      refine ⟨_, by rw [e2]; exact h4, ?_⟩
      simp only [Option.some.injEq] at hl
      rcases h6 with ⟨f1, f2⟩ | ⟨f1, f2⟩
      · exact .inl ⟨f1.trans hl, f2⟩
      · exact .inr ⟨f1, f2.trans hl⟩
    · rw [e1, h4] at hl
      refine ⟨_, by rw [e2]; exact h3, ?_⟩
      simp only [Option.some.injEq] at hl
      rcases h6 with ⟨f1, f2⟩ | ⟨f1, f2⟩
      · exact .inr ⟨f1, f2.trans hl⟩
      · exact .inl ⟨f1.trans hl, f2⟩

/-- C42: linking is mutual, through the same transition. -/
theorem C42_mutual (w : World) (a b : Str) (ia ib : Nat) (hr : Reachable w) (ha : Plain w a) (hb : Plain w b)
    (hla : w.g.lev a = some ia) (hlb : w.g.lev b = some ib) :
    ∃ da db, linkedLevels a w = (w, .ok da) ∧ linkedLevels b w = (w, .ok db) ∧ da.get? b = db.get? a := by
  obtain ⟨da, h1, h2⟩ := linkedLevels_plain hr.wf.gok.nodup ha hla
  obtain ⟨db, h3, h4⟩ := linkedLevels_plain hr.wf.gok.nodup hb hlb
  refine ⟨da, db, h1, h3, ?_⟩
  rw [h2, h4, hr.wf.gok.symm a b]
  by_cases h : a = b
  · subst h; rfl
  · simp [h, Ne.symm h]

/-- The name is resolved through the aliases, the neighbours are not: asking by alias raises `KeyError`. -/
theorem C42_fails : ¬C42_full := by
  intro h
  let ops := aliasOps
  obtain ⟨w', d, h1, _⟩ := h (runAll ops (emptyAtom 0 0)) ['x'] 0 (demo_reachable (by decide +kernel))
    (by decide +kernel) (by decide +kernel)
  have : (linkedLevels ['x'] (runAll ops (emptyAtom 0 0))).2 = .ok d := by rw [h1]
  have h2 : (linkedLevels ['x'] (runAll ops (emptyAtom 0 0))).2 = .error .KeyError := by decide +kernel
  rw [h2] at this
  simp at this

example : let w := runAll (threeLevels 0 5 9 ++ [.newTrans 0 1 none .none none, .newTrans 2 0 none .none none]) (emptyAtom 0 0)
    (linkedLevels (demoName 'g') w).2 = .ok [(demoName 'a', 0), (demoName 'b', 1)] := by decide +kernel

/-! ## C46 -/

/-- The full claim. -/
def C46_full : Prop := ∀ (ops : List Op) (σ : Ord') (t : Nat), let w := runAll ops (emptyAtom 0 0)
  t < w.ntr → (w.tr t).built = true → let w' := (World.addTransition σ t w).1
  w'.Registered (w.tr t).e1 ∧ w'.Registered (w.tr t).e2

/-- `add_transition` never adds a level: the container is what it was before. -/
theorem C46_levels_unchanged_partial (w : World) (σ : Ord') (t : Nat) :
    (∀ n, (World.addTransition σ t w).1.g.lev n = w.g.lev n) ∧
    (w.Registered (w.tr t).e1 → (World.addTransition σ t w).1.Registered (w.tr t).e1) ∧
    (w.Registered (w.tr t).e2 → (World.addTransition σ t w).1.Registered (w.tr t).e2) := by
  have h1 : ∀ n, (World.addTransition σ t w).1.g.lev n = w.g.lev n := by
    intro n
    rw [(addTransition_frame σ t w).g, trAddToAtom_fst]
    exact Graph.lev_addEdge ..
  have h2 : ∀ i, (World.addTransition σ t w).1.lname i = w.lname i := by
    intro i
    rw [(addTransition_frame σ t w).lname, trAddToAtom_fst]; rfl
  exact ⟨h1, fun h => by unfold Registered; rw [h1, h2]; exact h, fun h => by unfold Registered; rw [h1, h2]; exact h⟩

/-- Two levels that are not in the atom, and a transition between them added to it. -/
theorem C46_fails : ¬C46_full := by
  intro h
  let ops : List Op := [.newLevel (demoTerm 'g') 0 0 0 0 0 none, .newLevel (demoTerm 'a') 5 0 0 0 0 none,
    .newTrans 0 1 none .none none]
  have := (h ops idOrd 0 (by decide +kernel) (by decide +kernel)).1
  revert this
  unfold Registered
  decide +kernel

/-! ## C47 -/

/-- The full claim: a constructor that raises leaves the transitions alone, and frequencies can be set as before. -/
def C47_full : Prop := ∀ w w' a b f A ali e, Reachable w → World.newTrans a b f A ali w = (w', .error e) →
  w'.g.edges = w.g.edges ∧
  ∀ σ t fr, Shuffles σ → (setFrequency σ t fr w).2 = .ok () → (setFrequency σ t fr w').2 = .ok ()

/-- If the first level is not in the atom, a failed construction does not touch the graph. -/
theorem C47_outside_partial (w w' : World) (a b : Nat) (f : Option ℚ) (A : AArg) (ali : Option Str) (e : PyErr)
    (ha : (w.lv a).inAtom = false) (h : World.newTrans a b f A ali w = (w', .error e)) : w'.g = w.g := by
  have h1 : newTransObj a b ali w = (newTransHeap w a b ali, .ok w.ntr) := by
    unfold newTransObj; simp [ha, newTransHeap]
  unfold World.newTrans at h
  rw [PyM.bind_ok h1] at h
  have h2 : (newTransAttrs w.ntr f A (newTransHeap w a b ali)).1.g = w.g := by rw [newTransAttrs_g]; rfl
  rcases hr : newTransAttrs w.ntr f A (newTransHeap w a b ali) with ⟨w2, r⟩
  rw [hr] at h2
  cases r with
  | error e => rw [PyM.bind_err hr] at h; rw [← (Prod.mk.inj h).1]; exact h2
  | ok u => rw [PyM.bind_ok hr] at h; simp [pure] at h

theorem setEdgesL_poison (w : World) (l : List ((Str × Str) × Nat)) (p : (Str × Str) × Nat) (hp : p ∈ l)
    (hb : (w.tr p.2).built = false) : setEdgesL w l = .error .AttributeError := by
  induction l with
  | nil => simp at hp
  | cons q l ih =>
    obtain ⟨q1, q2⟩ := q
    unfold setEdgesL
    rcases List.mem_cons.1 hp with rfl | h
    · simp [hb]
    · rw [ih h]
      split
      · rfl
      · rfl

/-- In general: whenever the constructor raises and its first level is in the atom, the half-built transition is an edge of the
graph, and every later enforcement — hence every `set_frequency` — raises `AttributeError`. -/
theorem C47_poisoned (w w' : World) (a b : Nat) (f : Option ℚ) (A : AArg) (ali : Option Str) (e : PyErr)
    (hr : Reachable w) (ha : (w.lv a).inAtom = true) (h : World.newTrans a b f A ali w = (w', .error e))
    (σ : Ord') (trig : Option (Str × Str)) : enforce σ trig w' = (w', .error .AttributeError) := by
  have h1 : newTransObj a b ali w = ({ newTransHeap w a b ali with
      g := w.g.addEdge (w.lname (if w.eHz b > w.eHz a then a else b)) (w.lname (if w.eHz b > w.eHz a then b else a)) w.ntr },
      .ok w.ntr) := by
    simp [newTransObj, ha, trAddToAtom, newTransHeap, lname]
  unfold World.newTrans at h
  rw [PyM.bind_ok h1] at h
  set w1 : World := { newTransHeap w a b ali with
      g := w.g.addEdge (w.lname (if w.eHz b > w.eHz a then a else b)) (w.lname (if w.eHz b > w.eHz a then b else a)) w.ntr }
    with hw1
  have hfst : (newTransAttrs w.ntr f A w1) = (w1, .error e) ∧ w' = w1 := by
    rcases hr : newTransAttrs w.ntr f A w1 with ⟨w2, r⟩
    cases r with
    | ok u => rw [PyM.bind_ok hr] at h; simp [pure] at h
    | error e' =>
      rw [PyM.bind_err hr] at h
      obtain ⟨rfl, h3⟩ := Prod.mk.inj h
      have h3 : e' = e := by simpa using h3
      subst h3
      unfold newTransAttrs at hr
      split at hr
      · obtain ⟨h5, h4⟩ := Prod.mk.inj hr; exact ⟨by rw [← h4, ← h5], h5.symm⟩
      · split at hr
        · obtain ⟨h5, h4⟩ := Prod.mk.inj hr; exact ⟨by rw [← h4, ← h5], h5.symm⟩
        · simp only at hr
          split at hr
          · simp at hr
          · split at hr
            · simp at hr
            · rename_i hneg
              exact absurd (by simp [setTr, hw1, newTransHeap, ha]) hneg
  rw [hfst.2]
  have hok : w1.g.Ok := hr.wf.gok.addEdge _ _ _
  have hunb : (w1.tr w.ntr).built = false := by simp [hw1, newTransHeap]
  have hmem : ∃ p ∈ w1.g.edges, p.2 = w.ntr := by
    set u := w.lname (if w.eHz b > w.eHz a then a else b)
    set v := w.lname (if w.eHz b > w.eHz a then b else a)
    have h1 : w1.g.adj u v = some w.ntr := by
      show (w.g.addEdge u v w.ntr).adj u v = _
      rw [Graph.adj_addEdge]; simp
    have h2 : w1.g.adj v u = some w.ntr := by rw [hok.symm]; exact h1
    rcases Graph.before_total w1.g u v with hb | hb
    · have := Graph.get?_edges hok u v
      rw [if_pos hb, h1] at this
      exact ⟨_, Dict.mem_of_get? this, rfl⟩
    · have := Graph.get?_edges hok v u
      rw [if_pos hb, h2] at this
      exact ⟨_, Dict.mem_of_get? this, rfl⟩
  obtain ⟨p, hp, hpt⟩ := hmem
  have : w1.setEdges = .error .AttributeError := setEdgesL_poison w1 _ p hp (by rw [hpt]; exact hunb)
  unfold enforce
  rw [this]

/-- Two levels and a transition, then a constructor call with a linewidth that is not a rate. -/
theorem C47_fails : ¬C47_full := by
  intro h
  let ops := threeLevels 0 5 9 ++ [.newTrans 0 1 none .none none]
  let w := runAll ops (emptyAtom 0 0)
  have hw : (World.newTrans 0 2 none (.bad .DimensionalityError) none w).2 = .error .DimensionalityError := by decide +kernel
  have := (h w (World.newTrans 0 2 none (.bad .DimensionalityError) none w).1 0 2 none (.bad .DimensionalityError) none
    .DimensionalityError (demo_reachable (by decide +kernel)) (by rw [← hw])).2 idOrd 0 4 idOrd_shuffles (by decide +kernel)
  revert this
  decide +kernel

/-! ## C71 -/

/-- The full claim. -/
def C71_full : Prop := ∀ w σ t, Reachable w → Shuffles σ → t < w.ntr → (w.tr t).built = true →
  w.g.adj (w.lname (w.tr t).lower) (w.lname (w.tr t).upper) = some t → World.addTransition σ t w = (w, .ok ())

theorem Dict.set_same {κ α : Type} [DecidableEq κ] (d : Dict κ α) (k : κ) (v : α) (h : d.get? k = some v) :
    d.set k v = d := by
  induction d with
  | nil => simp [Dict.get?] at h
  | cons p d ih =>
    obtain ⟨k', v'⟩ := p
    unfold Dict.get? at h
    unfold Dict.set
    split at h
    · rename_i e
      simp only [Option.some.injEq] at h
      rw [if_pos e, h, e]
    · rename_i e
      rw [if_neg e, ih h]

theorem Graph.setNbr_same (g : Graph) (u v : Str) (t : Nat) (h : g.adj u v = some t) : g.setNbr u v t = g := by
  unfold Graph.setNbr
  unfold Graph.adj at h
  split
  · rename_i r hr
    rw [hr] at h
    simp only at h
    rw [Dict.set_same _ _ _ h]
    exact Dict.set_same _ _ _ hr
  · rfl

theorem Graph.addEdge_same (g : Graph) (hg : g.Ok) (u v : Str) (t : Nat) (h : g.adj u v = some t) : g.addEdge u v t = g := by
  have h' : g.adj v u = some t := by rw [hg.symm]; exact h
  have ht : ∀ {x y : Str}, g.adj x y = some t → g.touch x = g := by
    intro x y hxy
    unfold Graph.touch
    obtain ⟨r, hr⟩ := (Dict.get?_isSome g x).2 (Graph.mem_of_adj hxy)
    rw [hr]
  unfold Graph.addEdge
  rw [ht h, ht h', Graph.setNbr_same _ _ _ _ h, Graph.setNbr_same _ _ _ _ h']

/-- Up to enforcement, re-adding does nothing as long as the subtransitions have not been looked at. -/
theorem readd (w : World) (σ : Ord') (t : Nat) (hr : Reachable w) 
    (he : w.g.adj (w.lname (w.tr t).lower) (w.lname (w.tr t).upper) = some t) (hs : (w.tr t).subKeys = [])
    (ha : ∀ s, (w.tr t).ali = some s → w.talias.get? s = some t) :
    World.addTransition σ t w = enforceIfSet σ t w := by
  have h1 : World.trAddToAtom t w = (w, .ok ()) := by
    unfold World.trAddToAtom
    rw [Graph.addEdge_same _ hr.wf.gok _ _ _ he]
    simp [hs]
  have h2 : regTAlias t w = (w, .ok ()) := by
    unfold regTAlias
    split
    · rename_i s hs
      rw [Dict.set_same _ _ _ (ha s hs)]
    · rfl
  unfold World.addTransition
  rw [PyM.bind_ok h1, PyM.bind_ok h2]

/-- C71 before the subtransitions are first looked at, for a transition without set frequency: nothing changes. -/
theorem C71_free_partial (w : World) (σ : Ord') (t : Nat) (hr : Reachable w) (hb : (w.tr t).built = true)
    (he : w.g.adj (w.lname (w.tr t).lower) (w.lname (w.tr t).upper) = some t) (hs : (w.tr t).subKeys = [])
    (hf : (w.tr t).setFreq = none) (ha : ∀ s, (w.tr t).ali = some s → w.talias.get? s = some t) :
    World.addTransition σ t w = (w, .ok ()) := by
  rw [readd w σ t hr he hs ha]
  unfold enforceIfSet
  rw [if_pos hb, hf]

/-- All set frequencies are met, with the upper level on top. -/
def AllRight (w : World) : Prop :=
  ∀ n m t f, SetEdge w n m t f → 0 ≤ f ∧ w.eHz (w.tr t).upper - w.eHz (w.tr t).lower = f

theorem enfStep_right (w : World) (l up : Nat) (f : ℚ) (h : w.eHz up - w.eHz l = f) (k : Nat) :
    (enfStep w l up f).eHz k = w.eHz k := by
  rw [eHz_enfStep]
  split
  · rfl
  · split
    · split
      · rename_i e; rw [e, ← h]; ring
      · rfl
    · split
      · rename_i e; rw [e, ← h]; ring
      · rfl

/-- The part of the state a later `enforce` sees except pins is unchanged. -/
def Same (w w' : World) : Prop := AllRight w → EFrame w w' ∧ ∀ k, w'.eHz k = w.eHz k

theorem AllRight.transfer {w w' : World} (h : AllRight w) (hf : EFrame w w') (he : ∀ k, w'.eHz k = w.eHz k) : AllRight w' := by
  intro n m t f hs
  have := h n m t f ((hf.setEdge n m t f).1 hs)
  rw [he, he, hf.tr]
  exact this

theorem Same.trans (a b c : World) (h1 : Same a b) (h2 : Same b c) : Same a c := by
  intro h
  obtain ⟨f1, e1⟩ := h1 h
  obtain ⟨f2, e2⟩ := h2 (h.transfer f1 e1)
  exact ⟨EFrame.trans _ _ _ f1 f2, fun k => (e2 k).trans (e1 k)⟩

theorem Same.refl (w : World) : Same w w := fun _ => ⟨EFrame.refl w, fun _ => rfl⟩

theorem enforce_same (σ : Ord') (trig : Option (Str × Str)) (w : World) : Same w (enforce σ trig w).1 := by
  unfold enforce
  split
  · exact .refl w
  · refine enfComps_rel Same Same.refl Same.trans σ _ (fun c w => ?_) _ _ _
    unfold enfComp
    split
    · exact .refl w
    · exact .refl w
    · rename_i hlow
      clear hlow
      generalize Graph.dfsEdges c _ _ = l
      induction l generalizing w with
      | nil => exact .refl w
      | cons p l ih =>
        obtain ⟨u, v⟩ := p
        unfold enfEdges
        refine PyM.bind_rel Same Same.trans (fun w => ?_) (fun _ => ih) w
        intro h
        cases ht : w.g.adj u v with
        | none => unfold enfEdge; rw [ht]; exact ⟨EFrame.refl w, fun _ => rfl⟩
        | some t =>
          cases hf : (w.tr t).setFreq with
          | none => unfold enfEdge; rw [ht]; simp only [hf]; exact ⟨EFrame.refl w, by simp⟩
          | some f =>
            rw [enfEdge_eq ⟨ht, hf⟩]
            exact ⟨enfStep_eframe .., enfStep_right _ _ _ _ (h u v t f ⟨ht, hf⟩).2⟩

/-- C71 with set frequencies: in a consistent atom re-adding returns normally and changes no energy, no transition and
no edge. -/
theorem C71_consistent_partial (w : World) (σ : Ord') (t : Nat) (hr : Reachable w) (hσ : Shuffles σ) (hb : (w.tr t).built = true)
    (he : w.g.adj (w.lname (w.tr t).lower) (w.lname (w.tr t).upper) = some t) (hs : (w.tr t).subKeys = [])
    (ha : ∀ s, (w.tr t).ali = some s → w.talias.get? s = some t) (hall : AllRight w) :
    ∃ w', World.addTransition σ t w = (w', .ok ()) ∧ w'.g = w.g ∧ w'.tr = w.tr ∧ ∀ i, w'.eHz i = w.eHz i := by
  rw [readd w σ t hr he hs ha]
  unfold enforceIfSet
  rw [if_pos hb]
  split
  · obtain ⟨w', h1, _⟩ := enforce_group hr.wf hσ none []
    have h2 := enforce_same σ none w hall
    rw [h1] at h2
    exact ⟨w', h1, h2.1.frame.g, h2.1.tr, h2.2⟩
  · exact ⟨w, rfl, rfl, rfl, fun _ => rfl⟩

/-- After the subtransitions have been computed, re-adding raises `AttributeError`: the loop of `add_to_atom` runs
over the keys of a dictionary. -/
theorem C71_fails : ¬C71_full := by
  intro h
  let ops := threeLevels 0 5 9 ++ [.newTrans 0 1 none .none none, .fillSub 0 [("F=1/2".toList, "F=1/2".toList)]]
  have := h (runAll ops (emptyAtom 0 0)) idOrd 0 (demo_reachable (by decide +kernel)) idOrd_shuffles (by decide +kernel)
    (by decide +kernel) (by decide +kernel)
  have h2 := congrArg Prod.snd this
  revert h2
  decide +kernel

example : let w := runAll (threeLevels 0 5 9 ++ [.newTrans 0 1 (some 7) .none none, .addTransition idOrd 0]) (emptyAtom 0 0)
    Reachable w ∧ (w.tr 0).built = true ∧ (w.tr 0).subKeys = [] ∧ (w.tr 0).ali = none ∧
    w.g.adj (w.lname (w.tr 0).lower) (w.lname (w.tr 0).upper) = some 0 ∧ AllRight w := by
  refine ⟨demo_reachable (by decide +kernel), by decide +kernel, by decide +kernel, by decide +kernel, by decide +kernel, ?_⟩
  intro n m t f h
  exact forall_setEdge (w := runAll (threeLevels 0 5 9 ++ [.newTrans 0 1 (some 7) .none none, .addTransition idOrd 0]) (emptyAtom 0 0))
    (P := fun _ _ t f => 0 ≤ f ∧
    (runAll (threeLevels 0 5 9 ++ [.newTrans 0 1 (some 7) .none none, .addTransition idOrd 0]) (emptyAtom 0 0)).eHz
      ((runAll (threeLevels 0 5 9 ++ [.newTrans 0 1 (some 7) .none none, .addTransition idOrd 0]) (emptyAtom 0 0)).tr t).upper -
    (runAll (threeLevels 0 5 9 ++ [.newTrans 0 1 (some 7) .none none, .addTransition idOrd 0]) (emptyAtom 0 0)).eHz
      ((runAll (threeLevels 0 5 9 ++ [.newTrans 0 1 (some 7) .none none, .addTransition idOrd 0]) (emptyAtom 0 0)).tr t).lower
      = f) (by decide +kernel) h

/-! ## C49 -/

/-- A level with its own transition, and nothing else, added. -/
structure Internal (w w' : World) (is : List Nat) : Prop where
  lv : w'.lv = w.lv
  lev : ∀ n, w'.g.lev n = w.g.lev n
  names : w'.g.keys = w.g.keys
  ntr : w.ntr ≤ w'.ntr
  old : ∀ t, t < w.ntr → w'.tr t = w.tr t
  selfs : ∀ i ∈ is, ∃ t, w.ntr ≤ t ∧ t < w'.ntr ∧ w'.g.adj (w.lname i) (w.lname i) = some t ∧ (w'.tr t).e1 = i ∧ (w'.tr t).e2 = i
  others : ∀ a b, (∀ i ∈ is, ¬(a = w.lname i ∧ b = w.lname i)) → w'.g.adj a b = w.g.adj a b
  lalias : w'.lalias = w.lalias

theorem internal_loop (is : List Nat) (w : World) (hd : (is.map w.lname).Nodup) (h : ∀ i ∈ is, (w.lv i).inAtom = true ∧ (∃ J, (w.lv i).term.J = some J) ∧
    w.lname i ∈ w.g.keys) : ∃ w', internalLoop is w = (w', .ok ()) ∧ Internal w w' is ∧ w'.ntr = w.ntr + is.length := by
  induction is generalizing w with
  | nil =>
    exact ⟨w, rfl, ⟨rfl, fun _ => rfl, rfl, le_refl _, fun _ _ => rfl, by simp, fun _ _ _ => rfl, rfl⟩, rfl⟩
  | cons i is ih =>
    obtain ⟨hin, ⟨J, hJ⟩, hk⟩ := h i (by simp)
    have h1 := newTrans_ok w i i none .none none J J hin hJ hJ (by intro e; simp)
    simp only [gt_iff_lt, lt_irrefl, if_false] at h1
    set w1 : World := { w with
          ntr := w.ntr + 1
          tr := upd w.tr w.ntr (finished w i i none .none none J J)
          g := w.g.addEdge (w.lname i) (w.lname i) w.ntr
          talias := withAlias w.talias w.ntr none } with hw1
    have h2 : World.trAddToAtom w.ntr w1 = (⟨w1.I, w1.B, w1.nlv, w1.lv, w1.nhf, w1.hf, w1.nzl, w1.zl, w1.ntr, w1.tr,
        w1.g.addEdge (w.lname i) (w.lname i) w.ntr, w1.lalias, w1.talias, w1.warned⟩, .ok ()) := by
      unfold World.trAddToAtom
      simp [hw1, finished, lname]
    set w2 : World := ⟨w1.I, w1.B, w1.nlv, w1.lv, w1.nhf, w1.hf, w1.nzl, w1.zl, w1.ntr, w1.tr,
        w1.g.addEdge (w.lname i) (w.lname i) w.ntr, w1.lalias, w1.talias, w1.warned⟩ with hw2
    have hi : internal1 i w = (w2, .ok ()) := by
      unfold internal1
      rw [PyM.bind_ok h1, h2]
    have hname : ∀ k, w2.lname k = w.lname k := fun _ => rfl
    have hlev : ∀ n, w2.g.lev n = w.g.lev n := by
      intro n
      show ((w.g.addEdge _ _ _).addEdge _ _ _).lev n = _
      rw [Graph.lev_addEdge, Graph.lev_addEdge]
    have hkeys : w2.g.keys = w.g.keys := by
      show ((w.g.addEdge _ _ _).addEdge _ _ _).keys = _
      have : (w.g.addEdge (w.lname i) (w.lname i) w.ntr).keys = w.g.keys := Graph.keys_addEdge_of_mem _ _ _ _ hk hk
      rw [Graph.keys_addEdge_of_mem _ _ _ _ (by rw [this]; exact hk) (by rw [this]; exact hk), this]
    have hadj : ∀ a b, w2.g.adj a b = if a = w.lname i ∧ b = w.lname i then some w.ntr else w.g.adj a b := by
      intro a b
      show ((w.g.addEdge _ _ _).addEdge _ _ _).adj a b = _
      rw [Graph.adj_addEdge, Graph.adj_addEdge]
      by_cases hc : a = w.lname i ∧ b = w.lname i
      · simp [hc]
      · rw [if_neg (by tauto), if_neg (by tauto), if_neg hc]
    obtain ⟨w3, h3, h4, h5⟩ := ih w2 (List.nodup_cons.1 hd).2 (fun k hk' => by
      obtain ⟨a1, a2, a3⟩ := h k (by simp [hk'])
      exact ⟨a1, a2, by rw [hname, hkeys]; exact a3⟩)
    refine ⟨w3, ?_, ⟨h4.lv, fun n => (h4.lev n).trans (hlev n), h4.names.trans hkeys, ?_, ?_, ?_, ?_, h4.lalias⟩, ?_⟩
    · unfold internalLoop
      rw [PyM.bind_ok hi, h3]
    · have := h4.ntr; have e : w2.ntr = w.ntr + 1 := rfl; omega
    · intro t ht
      have e : w2.ntr = w.ntr + 1 := rfl
      rw [h4.old t (by omega)]
      exact upd_ne _ _ _ (by omega)
    · have e : w2.ntr = w.ntr + 1 := rfl
      have hself : ∀ k ∈ is, ∃ t, w.ntr ≤ t ∧ t < w3.ntr ∧ w3.g.adj (w.lname k) (w.lname k) = some t ∧ (w3.tr t).e1 = k ∧
          (w3.tr t).e2 = k := by
        intro k hk'
        obtain ⟨t, t1, t2, t3, t4, t5⟩ := h4.selfs k hk'
        exact ⟨t, by omega, t2, t3, t4, t5⟩
      intro k hk'
      rcases List.mem_cons.1 hk' with rfl | hk''
      · refine ⟨w.ntr, le_refl _, by have := h4.ntr; omega, ?_, ?_, ?_⟩
        · rw [h4.others _ _ (fun j hj hc => ?_), hadj, if_pos ⟨rfl, rfl⟩]
          exact (List.nodup_cons.1 hd).1 (List.mem_map.2 ⟨j, hj, hc.1.symm⟩)
        · rw [h4.old _ (by omega)]; simp [hw2, hw1, finished]
        · rw [h4.old _ (by omega)]; simp [hw2, hw1, finished]
      · exact hself k hk''
    · intro a b hab
      rw [h4.others a b (fun k hk' => by rw [hname]; exact hab k (by simp [hk'])), hadj, if_neg (hab i (by simp))]
    · have e : w2.ntr = w.ntr + 1 := rfl
      rw [h5, e, List.length_cons]; omega

/-- What `populate_internal_transitions` should do: return normally, one new transition from each level to itself, and
nothing else different. -/
def AddsSelfs (w : World) : Prop := ∃ w', populateInternal w = (w', .ok ()) ∧
  w'.ntr = w.ntr + w.levelNames.length ∧ w'.levelNames = w.levelNames ∧
  (∀ i, w'.eHz i = w.eHz i) ∧ (∀ i, w'.lv i = w.lv i) ∧ (∀ n, w'.g.lev n = w.g.lev n) ∧ (∀ t, t < w.ntr → w'.tr t = w.tr t) ∧
  (∀ n ∈ w.levelNames, ∃ t i, w.g.lev n = some i ∧ w.ntr ≤ t ∧ w'.g.adj n n = some t ∧ (w'.tr t).e1 = i ∧ (w'.tr t).e2 = i) ∧
  (∀ a b, a ≠ b → w'.g.adj a b = w.g.adj a b) ∧
  (∀ n i, Plain w n → w.g.lev n = some i →
    ∃ d d', linkedLevels n w = (w, .ok d) ∧ linkedLevels n w' = (w', .ok d') ∧ ∀ m, d'.get? m = d.get? m)

def C49_full : Prop := ∀ w, Reachable w → AddsSelfs w

/-- C49 for atoms all of whose levels have a total angular momentum. -/
theorem C49_partial (w : World) (hr : Reachable w) (hJ : ∀ n i, w.g.lev n = some i → ∃ J, (w.lv i).term.J = some J) :
    AddsSelfs w := by
  have hn := hr.wf.gok.nodup
  have hvals : ∀ i ∈ w.g.levelAttrs.vals, w.g.lev (w.lname i) = some i := by
    intro i hi
    obtain ⟨p, hp, rfl⟩ := List.mem_map.1 hi
    have h1 : w.g.levelAttrs.get? p.1 = some p.2 :=
      Dict.get?_of_mem (by rw [Graph.keys_levelAttrs _ hn]; exact hn.filter _) hp
    rw [Graph.get?_levelAttrs _ hn] at h1
    rw [(hr.wf.node _ _ h1).1, h1]
  have hmap : w.g.levelAttrs.vals.map w.lname = w.levelNames := by
    show (w.g.levelAttrs.map (·.2)).map w.lname = w.g.levelAttrs.map (·.1)
    rw [List.map_map]
    refine List.map_congr_left (fun p hp => ?_)
    have h1 : w.g.levelAttrs.get? p.1 = some p.2 :=
      Dict.get?_of_mem (by rw [Graph.keys_levelAttrs _ hn]; exact hn.filter _) hp
    rw [Graph.get?_levelAttrs _ hn] at h1
    exact (hr.wf.node _ _ h1).1
  obtain ⟨w', h1, h2, h3⟩ := internal_loop w.g.levelAttrs.vals w (by rw [hmap, hr.names]; exact hn) (fun i hi => by
    have := hvals i hi
    exact ⟨(hr.wf.node _ _ this).2.1, hJ _ _ this, Graph.mem_of_lev this⟩)
  have hname : ∀ i, w'.lname i = w.lname i := fun i => by unfold lname; rw [h2.lv]
  have hadj : ∀ a b, a ≠ b → w'.g.adj a b = w.g.adj a b := by
    intro a b hab
    refine h2.others a b (fun i _ hc => hab (hc.1.trans hc.2.symm))
  have hla : w'.g.levelAttrs.keys = w.g.levelAttrs.keys := by
    rw [Graph.keys_levelAttrs _ (by rw [h2.names]; exact hn), Graph.keys_levelAttrs _ hn, h2.names]
    congr 1
    funext n
    rw [h2.lev]
  refine ⟨w', h1, ?_, hla, fun i => by unfold eHz; rw [h2.lv], fun i => by rw [h2.lv], h2.lev, h2.old, ?_, hadj, ?_⟩
  · rw [h3, ← hmap, List.length_map]
  · intro n hnm
    rw [← hmap] at hnm
    obtain ⟨i, hi, rfl⟩ := List.mem_map.1 hnm
    obtain ⟨t, t1, _, t3, t4, t5⟩ := h2.selfs i hi
    exact ⟨t, i, hvals i hi, t1, t3, t4, t5⟩
  · intro n i hp hl
    obtain ⟨d, d1, d2⟩ := linkedLevels_plain hn hp hl
    obtain ⟨d', d1', d2'⟩ := linkedLevels_plain (w := w') (by rw [h2.names]; exact hn)
      (show Plain w' n from ⟨hp.1, by rw [h2.lalias]; exact hp.2⟩) (by rw [h2.lev]; exact hl)
    refine ⟨d, d', d1, d1', fun m => ?_⟩
    rw [d2, d2']
    split
    · rename_i h; exact hadj _ _ (Ne.symm h)
    · rfl

/-- A level whose term leaves the total angular momentum open stops it half way. -/
theorem C49_fails : ¬C49_full := by
  intro h
  let ops : List Op := [.newLevel { demoTerm 'g' with J := none } 0 0 0 0 0 none, .addLevel 0 false none]
  obtain ⟨w', h1, _⟩ := h (runAll ops (emptyAtom 0 0)) (demo_reachable (by decide +kernel))
  have h2 : (populateInternal (runAll ops (emptyAtom 0 0))).2 = .error .TypeError := by decide +kernel
  rw [h1] at h2
  simp at h2

example : let w := runAll (threeLevels 0 5 9 ++ [.newTrans 0 1 none .none none]) (emptyAtom 0 0)
    Reachable w ∧ ∀ n i, w.g.lev n = some i → ∃ J, (w.lv i).term.J = some J := by
  refine ⟨demo_reachable (by decide +kernel), fun n i h => ?_⟩
  have hn : (runAll (threeLevels 0 5 9 ++ [.newTrans 0 1 none .none none]) (emptyAtom 0 0)).g.keys.Nodup := by decide +kernel
  have := Dict.mem_of_get? ((Graph.get?_levelAttrs _ hn n).trans h)
  have key : ∀ p ∈ (runAll (threeLevels 0 5 9 ++ [.newTrans 0 1 none .none none]) (emptyAtom 0 0)).g.levelAttrs,
    ((runAll (threeLevels 0 5 9 ++ [.newTrans 0 1 none .none none]) (emptyAtom 0 0)).lv p.2).term.J.isSome = true := by
    decide +kernel
  exact Option.isSome_iff_exists.1 (key _ this)

end AtomTk
