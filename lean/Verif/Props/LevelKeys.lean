import Verif.Model.LevelKeys
import Verif.Props.Items
import Verif.Props.Table
import Verif.Props.Transitions

/-!
# C169: the README's lookup of a transition by two levels
-/

namespace AtomTk
open World Strengths

/-- A text of the form `F=...` with something after it is none of the three spellings asked for. -/
theorem fText_ne {x : Str} (h : x ≠ []) : "F=".toList ++ x ≠ Term.mfEq ∧ "F=".toList ++ x ≠ mJeq ∧ "F=".toList ++ x ≠ Term.fEq := by
  obtain ⟨c, cs, rfl⟩ := List.exists_cons_of_ne_nil h
  refine ⟨?_, ?_, ?_⟩ <;> intro h1 <;> simp [Term.mfEq, mJeq, Term.fEq] at h1

theorem levelsGetLevel_err {w w' : World} {r : Ref} {e : PyErr} (h : refKeys r w = (w', .error e)) :
    levelsGetLevel r w = (w', .error e) := by
  unfold levelsGetLevel
  exact PyM.bind_err h

/-- No level is found by a level, whatever the level and the state of the atom. -/
theorem C169_never (w : World) (r v : Ref) : (levelsGetLevel r w).2 ≠ .ok v := by
  rcases h1 : refKeys r w with ⟨w1, e | k1⟩
  · rw [levelsGetLevel_err h1]; simp
  unfold levelsGetLevel
  rw [PyM.bind_ok h1]
  split
  · simp [PyM.raise]
  rcases h2 : refKeys r w1 with ⟨w2, e | k2⟩
  · rw [PyM.bind_err h2]; simp
  rw [PyM.bind_ok h2]
  split
  · simp [PyM.raise]
  rcases h3 : refKeys r w2 with ⟨w3, e | k3⟩
  · rw [PyM.bind_err h3]; simp
  rw [PyM.bind_ok h3]
  split <;> simp [PyM.raise]

/-- No transition is found by a pair with a level in it. -/
theorem C169_pair (W : Wig) (sd : SubDicts) (w : World) (r : Ref) (k : LKey) (v : TRef) :
    (transGetK W sd (.level r) k w).2 ≠ .ok v ∧ (transGetK W sd k (.level r) w).2 ≠ .ok v := by
  constructor
  · rcases h : levelsGetLevel r w with ⟨w1, e | x⟩
    · have : transGetK W sd (.level r) k w = (w1, .error e) := by
        cases k <;> exact PyM.bind_err h
      rw [this]; simp
    · exact absurd (by rw [h]) (C169_never w r x)
  · have key : ∀ k0, (levelsGetK k0 >>= fun _ => levelsGetK (.level r) >>= fun _ => (PyM.raise .KeyError : PyM TRef)) w ≠
        (((levelsGetK k0 >>= fun _ => levelsGetK (.level r) >>= fun _ => (PyM.raise .KeyError : PyM TRef)) w).1, .ok v) := by
      intro k0
      rcases h : levelsGetK k0 w with ⟨w1, e | x⟩
      · rw [PyM.bind_err h]; simp
      · rw [PyM.bind_ok h]
        rcases h2 : levelsGetLevel r w1 with ⟨w2, e | y⟩
        · have : (levelsGetK (.level r) >>= fun _ => (PyM.raise .KeyError : PyM TRef)) w1 = (w2, .error e) := PyM.bind_err h2
          rw [this]; simp
        · exact absurd (by rw [h2]) (C169_never w1 r y)
    intro h
    refine key k (Prod.ext rfl ?_)
    cases k <;> exact h

/-- For a level of the atom the error is a `KeyError`; its hyperfine levels have been computed by then, no energy has changed. -/
theorem C169_key {w : World} (hr : Reachable w) (hI : IsSpin w.I) {i : Nat} {J : ℚ} (hf : Findable w i J) :
    ∃ w', levelsGetLevel (.fine i) w = (w', .error .KeyError) ∧ (w'.lv i).subs ≠ [] ∧ w'.g = w.g ∧ ∀ k, w'.eHz k = w.eHz k := by
  have hin := (hr.wf.node _ _ hf.reg).2.1
  obtain ⟨w1, h1, h2, h3⟩ := lazyHF_ok hr.keysInv hI hin hf.hJ hf.spin hf.hF
  have hfr := lazyHF_frame i w
  rw [h1] at hfr
  have hne : hfFs w.I J ≠ [] := by
    intro h0
    have := (C13_multiplet w.I J hI hf.spin).2.2.1
    rw [h0] at this
    have h4 : (0 : ℚ) ≤ min w.I J := le_min hI.nonneg hf.spin.nonneg
    simp at this
    linarith
  have hsub : (w1.lv i).subs ≠ [] := by
    intro h0
    rw [keys_nil h0] at h2
    exact hne (List.map_eq_nil_iff.1 h2.symm)
  have k1 : refKeys (.fine i) w = (w1, .ok (w1.lv i).subs.keys) := (agree_lv h1).2.1
  have k2 : refKeys (.fine i) w1 = (w1, .ok (w1.lv i).subs.keys) := (agree_lv (lazyHF_again hsub)).2.1
  have hno : ∀ x, (x = Term.mfEq ∨ x = mJeq ∨ x = Term.fEq) → x ∉ (w1.lv i).subs.keys := by
    intro x hx hm
    rw [h2] at hm
    obtain ⟨F, hF, rfl⟩ := List.mem_map.1 hm
    have := fText_ne (numToFrac_ne (hfFs_spin hI hf.spin hF).isHalfInt)
    rcases hx with h | h | h
    · exact this.1 h
    · exact this.2.1 h
    · exact this.2.2 h
  refine ⟨w1, ?_, hsub, hfr.g, fun k => hfr.eHz k⟩
  unfold levelsGetLevel
  rw [PyM.bind_ok k1, if_neg (hno _ (.inl rfl)), PyM.bind_ok k2, if_neg (hno _ (.inr (.inl rfl))), PyM.bind_ok k2,
    if_neg (hno _ (.inr (.inr rfl)))]
  rfl

/-! ## No transitions after `from_dataframe` -/

/-- No transition, no alias of one. -/
def NoTrans (w : World) : Prop := (∀ p ∈ w.g, p.2.nbrs = []) ∧ w.talias = []

theorem edgesFrom_nil (seen : List Str) (g : Graph) (h : ∀ p ∈ g, p.2.nbrs = []) : Graph.edgesFrom seen g = [] := by
  induction g generalizing seen with
  | nil => rfl
  | cons p g ih =>
    obtain ⟨n, r⟩ := p
    unfold Graph.edgesFrom
    have : r.nbrs = [] := h (n, r) (by simp)
    rw [this, ih _ (fun q hq => h q (List.mem_cons_of_mem _ hq))]
    rfl

theorem mem_set_val {κ α : Type _} [DecidableEq κ] (d : Dict κ α) (k : κ) (v : α) (p : κ × α) (h : p ∈ d.set k v) : p ∈ d ∨ p.2 = v := by
  induction d with
  | nil => simp [Dict.set] at h; right; rw [h]
  | cons q d ih =>
    obtain ⟨a, b⟩ := q
    unfold Dict.set at h
    split at h
    · rcases List.mem_cons.1 h with h | h
      · right; rw [h]
      · left; exact List.mem_cons_of_mem _ h
    · rcases List.mem_cons.1 h with h | h
      · left; rw [h]; simp
      · rcases ih h with h | h
        · left; exact List.mem_cons_of_mem _ h
        · exact .inr h

theorem addNode_nbrs (g : Graph) (n : Str) (l : Nat) (h : ∀ p ∈ g, p.2.nbrs = []) : ∀ p ∈ g.addNode n l, p.2.nbrs = [] := by
  intro p hp
  unfold Graph.addNode at hp
  cases hg : g.get? n with
  | none =>
    rw [hg] at hp
    rcases mem_set_val _ _ _ _ hp with hp | hp
    · exact h p hp
    · rw [hp]
  | some r =>
    rw [hg] at hp
    rcases mem_set_val _ _ _ _ hp with hp | hp
    · exact h p hp
    · rw [hp]
      exact h _ (mem_of_get? hg)

theorem addLevel_noTrans (i : Nat) (w : World) (h : NoTrans w) : NoTrans (addLevel i false none w).1 := by
  unfold addLevel
  rw [PyM.bind_ok (show lvAddToAtom i w = ((lvAddToAtom i w).1, .ok ()) from rfl),
    PyM.bind_ok (show setAliasOpt i none (lvAddToAtom i w).1 = ((lvAddToAtom i w).1, .ok ()) from rfl)]
  have h1 : NoTrans (lvAddToAtom i w).1 := ⟨addNode_nbrs _ _ _ h.1, h.2⟩
  generalize (lvAddToAtom i w).1 = w1 at h1
  have h2 : ∃ w2, regAlias i w1 = (w2, .ok ()) ∧ NoTrans w2 := by
    unfold regAlias
    cases (w1.lv i).ali with
    | none => exact ⟨w1, rfl, h1⟩
    | some al => exact ⟨_, rfl, h1⟩
  obtain ⟨w2, e, h3⟩ := h2
  rw [PyM.bind_ok e]
  exact h3

theorem addRow_noTrans (df : Table) (i : Nat) (w : World) (h : NoTrans w) : NoTrans (addRow df i w).1 := by
  unfold addRow
  cases h1 : df.getE i with
  | error e => rw [PyM.bind_err (show PyM.lift (.error e) w = (w, .error e) from rfl)]; exact h
  | ok r =>
    rw [PyM.bind_ok (show PyM.lift (.ok r) w = (w, .ok r) from rfl)]
    cases h2 : r.term with
    | error e => rw [PyM.bind_err (show PyM.lift (.error e) w = (w, .error e) from rfl)]; exact h
    | ok t =>
      rw [PyM.bind_ok (show PyM.lift (.ok t) w = (w, .ok t) from rfl),
        PyM.bind_ok (show newLevel t r.level r.lande 0 0 0 none w = ((newLevel t r.level r.lande 0 0 0 none w).1, .ok w.nlv) from rfl)]
      exact addLevel_noTrans _ _ h

theorem catchKey_fst (m : PyM Unit) (w : World) : (catchKey m w).1 = (m w).1 := by
  unfold catchKey
  split
  · next w' h => rw [h]
  · rfl

theorem addRows_noTrans (df : Table) (is : List Nat) (w : World) (h : NoTrans w) : NoTrans (addRows df is w).1 := by
  induction is generalizing w with
  | nil => exact h
  | cons i is ih =>
    rw [addRows_cons]
    have h1 := addRow_noTrans df i w h
    rw [← catchKey_fst] at h1
    rcases h2 : catchKey (addRow df i) w with ⟨w1, e | u⟩
    · rw [PyM.bind_err h2]
      rw [h2] at h1; exact h1
    · rw [PyM.bind_ok h2]
      rw [h2] at h1; exact ih w1 h1

/-- The call does not return. -/
def Never {α : Type} (m : PyM α) (w : World) : Prop := ∀ v, (m w).2 ≠ .ok v

theorem Never.bind {α β : Type} {m : PyM α} {f : α → PyM β} {w : World} (h : ∀ a w', m w = (w', .ok a) → Never (f a) w') : Never (m >>= f) w := by
  intro v
  rcases h1 : m w with ⟨w1, e | a⟩
  · rw [PyM.bind_err h1]; simp
  · rw [PyM.bind_ok h1]; exact h a w1 h1 v

theorem Never.raise {α : Type} (e : PyErr) (w : World) : Never (PyM.raise e : PyM α) w := by
  intro v; simp [PyM.raise]

theorem Never.edge {β : Type} {w w' : World} (h : NoTrans w) (p : Str × Str) (f : Nat → PyM β) : Never (PyM.lift (w.g.edges.getE p) >>= f) w' := by
  refine .bind fun a w1 h1 => ?_
  have : w.g.edges = [] := edgesFrom_nil _ _ h.1
  rw [this] at h1
  simp [PyM.lift, Dict.getE, Dict.get?] at h1

theorem transPath_never (W : Wig) (sd : SubDicts) (w : World) (f a b : Str) (h : NoTrans w) : Never (transPath W sd f a b) w := by
  unfold transPath
  refine .bind fun w0 w1 e => ?_
  cases e
  split
  · split
    · split
      · exact .edge h _ _
      · exact .raise _ _
    · exact .raise _ _
  · split
    · split
      · split
        · exact .bind fun _ _ _ => .bind fun _ _ _ => .edge h _ _
        · exact .raise _ _
      · exact .raise _ _
    · split
      · split
        · split
          · exact .edge h _ _
          · exact .raise _ _
        · exact .raise _ _
      · exact .edge h _ _

theorem levelsGet_noTrans {w w' : World} {a : Str} {r : Ref} (h : NoTrans w) (e : levelsGet a w = (w', .ok r)) : NoTrans w' := by
  have := levelsGet_frame a w
  rw [e] at this
  exact ⟨by rw [this.g]; exact h.1, by rw [this.talias]; exact h.2⟩

theorem transLookup_never (W : Wig) (sd : SubDicts) (w : World) (a b : Str) (h : NoTrans w) : Never (transLookup W sd a b) w := by
  unfold transLookup
  refine .bind fun ra w1 e1 => .bind fun rb w2 e2 => .bind fun w3 w4 e3 => ?_
  have h2 := levelsGet_noTrans (levelsGet_noTrans h e1) e2
  cases e3
  refine .bind fun ea w5 e5 => .bind fun eb w6 e6 => ?_
  have k5 : w5 = w2 := (congrArg Prod.fst e5).symm
  have k6 : w6 = w5 := (congrArg Prod.fst e6).symm
  rw [k6, k5]
  split
  · exact transPath_never W sd w2 _ _ _ h2
  · exact transPath_never W sd w2 _ _ _ h2

/-- `Atom.from_dataframe` makes no transition: whatever the table, and whether or not it raises, the atom lists no transition and no lookup of one
succeeds, neither by a pair of names nor by an alias. -/
theorem C169_table (W : Wig) (sd : SubDicts) (df : Table) (I B : ℚ) (num : Option Nat) :
    let w := (fromDataframe df I B num).1
    w.transKeys = [] ∧ (∀ a b v, (transGetK W sd (.name a) (.name b) w).2 ≠ .ok v) ∧ ∀ s v, (transGetStr W sd s w).2 ≠ .ok v := by
  intro w
  have h : NoTrans w := addRows_noTrans df _ _ ⟨by simp [emptyAtom], rfl⟩
  refine ⟨?_, fun a b => transLookup_never W sd w a b h, fun s => ?_⟩
  · show (Graph.edgesFrom [] w.g).map Prod.fst = []
    rw [edgesFrom_nil _ _ h.1]; rfl
  · show Never (transGetStr W sd s) w
    unfold transGetStr
    refine .bind fun w0 w1 e => ?_
    cases e
    rw [h.2]
    match s with
    | [] => exact .raise _ _
    | [c] => exact .bind fun _ _ _ => .raise _ _
    | c :: d :: _ => exact transLookup_never W sd w _ _ h

/-- C169 in full: two levels of the atom with a transition between them, as keys, give the transition. -/
def C169_full : Prop := ∀ (W : Wig) (sd : SubDicts) w i j t, Reachable w → w.g.adj (w.lname i) (w.lname j) = some t →
  w.g.lev (w.lname i) = some i → w.g.lev (w.lname j) = some j →
  ∃ w', transGetK W sd (.level (.fine i)) (.level (.fine j)) w = (w', .ok (.fine t))

theorem C169_fails : ¬C169_full := by
  intro h
  obtain ⟨w', e⟩ := h exactWig .empty (runAll (threeLevels 0 5 9 ++ [.newTrans 0 1 none .none none]) (emptyAtom 0 0)) 0 1 0
    (demo_reachable (by decide +kernel)) (by decide +kernel) (by decide +kernel) (by decide +kernel)
  exact (C169_pair _ _ _ _ _ (.fine 0)).1 (congrArg Prod.snd e)

/-- C169: with a level as either entry, the other the name of a level, the hyperfine levels of the level are computed, and a KeyError is raised; no energy
changes. -/
theorem C169_mixed (W : Wig) (sd : SubDicts) {w : World} (hr : Reachable w) (hI : IsSpin w.I) {i j : Nat} {J : ℚ} (hf : Findable w i J)
    (hj : w.g.lev (w.lname j) = some j) (hb : Plain w (w.lname j)) :
    ∃ w', transGetK W sd (.level (.fine i)) (.name (w.lname j)) w = (w', .error .KeyError) ∧
      transGetK W sd (.name (w.lname j)) (.level (.fine i)) w = (w', .error .KeyError) ∧ (w'.lv i).subs ≠ [] ∧ w'.g = w.g ∧ ∀ k, w'.eHz k = w.eHz k := by
  obtain ⟨w', h1, h2⟩ := C169_key hr hI hf
  refine ⟨w', PyM.bind_err h1, ?_, h2⟩
  show (levelsGetK (.name (w.lname j)) >>= fun _ => levelsGetK (.level (.fine i)) >>= fun _ => (PyM.raise .KeyError : PyM TRef)) w = _
  rw [PyM.bind_ok (show levelsGetK (.name (w.lname j)) w = (w, .ok (.fine j)) from levelsGet_plain hr.wf.gok.nodup hb hj)]
  exact PyM.bind_err h1

/-- The names of the two levels do find it, lower level first, if it was also added first. -/
theorem C169_names_partial (W : Wig) (sd : SubDicts) {w : World} (hr : Reachable w) {i j t : Nat} (hi : w.g.lev (w.lname i) = some i)
    (hj : w.g.lev (w.lname j) = some j) (ha : Plain w (w.lname i)) (hb : Plain w (w.lname j)) (hadj : w.g.adj (w.lname i) (w.lname j) = some t)
    (he : w.eHz i ≤ w.eHz j) (ho : w.levelNames.idxOf (w.lname i) ≤ w.levelNames.idxOf (w.lname j)) :
    transGetK W sd (.name (w.lname i)) (.name (w.lname j)) w = (w, .ok (.fine t)) := by
  have hn := hr.wf.gok.nodup
  have h1 := (C29_found_partial w _ _ i j t hr ha hb hi hj hadj).2 (by rw [if_neg (not_lt.2 he)]; exact ho)
  rw [transGet_le hr ha hb hi hj he] at h1
  have h2 : w.g.edges.getE (w.lname i, w.lname j) = .ok t := congrArg Prod.snd h1
  show transLookup W sd _ _ w = _
  rw [transLookup_of W sd (levelsGet_plain hn ha hi) (levelsGet_plain hn hb hj) rfl rfl, if_neg (not_lt.2 he)]
  obtain ⟨g1, g2, g3⟩ := (plainKey_iff _).1 ha.1
  unfold transPath
  rw [PyM.get_bind]
  simp only [g1, g2, g3, Bool.false_eq_true, if_false]
  rw [PyM.bind_ok (show PyM.lift (w.g.edges.getE (w.lname i, w.lname j)) w = (w, .ok t) by rw [h2]; rfl)]
  rfl

example : ∃ w', levelsGetLevel (.fine 0) (runAll hfOps (emptyAtom (1/2) 0)) = (w', .error .KeyError) := by
  obtain ⟨w', h, _⟩ := C169_key (w := runAll hfOps (emptyAtom (1/2) 0)) (i := 0) (J := 1/2) ((Reachable.empty _ _).runAll (by decide +kernel))
    ⟨1, by decide +kernel⟩ ⟨by decide +kernel, by decide +kernel, by decide +kernel, ⟨1, by decide +kernel⟩, by decide +kernel, by decide +kernel⟩
  exact ⟨w', h⟩

example : (lvKeys 0 (levelsGetLevel (.fine 0) (runAll hfOps (emptyAtom (1/2) 0))).1).2 = .ok ["F=0".toList, "F=1".toList] := by decide +kernel

example (W : Wig) (sd : SubDicts) : let w := runAll (threeLevels 0 5 9 ++ [.newTrans 0 1 none .none none]) (emptyAtom 0 0)
    transGetK W sd (.name (demoName 'g')) (.name (demoName 'a')) w = (w, .ok (.fine 0)) := by
  have h := C169_names_partial W sd (w := runAll (threeLevels 0 5 9 ++ [Op.newTrans 0 1 none .none none]) (emptyAtom 0 0)) (i := 0) (j := 1) (t := 0)
    (demo_reachable (by decide +kernel)) (by decide +kernel) (by decide +kernel) (by decide +kernel)
    (by decide +kernel) (by decide +kernel) (by decide +kernel) (by decide +kernel)
  rw [show World.lname (runAll (threeLevels 0 5 9 ++ [Op.newTrans 0 1 none .none none]) (emptyAtom 0 0)) 0 = demoName 'g' by decide +kernel,
    show World.lname (runAll (threeLevels 0 5 9 ++ [Op.newTrans 0 1 none .none none]) (emptyAtom 0 0)) 1 = demoName 'a' by decide +kernel] at h
  exact h

/-- A table of two rows: two levels and no transition. -/
example : ((fromDataframe [(0, demoRow 'g' 0), (1, demoRow 'a' 7)] (5/2) 0 none).1.levelNames.length = 2) ∧
    (fromDataframe [(0, demoRow 'g' 0), (1, demoRow 'a' 7)] (5/2) 0 none).1.transKeys = [] :=
  ⟨by decide +kernel, (C169_table exactWig .empty _ _ _ _).1⟩

end AtomTk
