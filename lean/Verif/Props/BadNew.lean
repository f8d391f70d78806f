import Verif.Props.BadFreq

/-!
# C175: transitions made with a frequency that cannot be converted
-/

namespace AtomTk
open Util World

/-- The full claim C175: `add_transition` with a frequency that cannot be converted raises and adds nothing. -/
def C175_full : Prop := ∀ (w : World) (bad : Bad) (σ : Ord') (a b : Nat) (q : FreqArg) (A : AArg) (ali : Option Str), ReachableQ (w, bad) → Shuffles σ →
  (Op.newTrans a b none A ali).Sane w → q.err ≠ none →
  (∃ e, (addPairQ σ a b (some q) A ali (w, bad)).2 = .error e) ∧ (addPairQ σ a b (some q) A ali (w, bad)).1.1.g = w.g

/-- The constructor looks at no frequency: with any it returns, or raises, what it does without. -/
theorem C175_constructor (a b : Nat) (q : Option FreqArg) (A : AArg) (ali : Option Str) (s : World × Bad) :
    (newTransQ a b q A ali s).2 = (newTrans a b none A ali s.1).2 := by
  show (newTrans a b (q.map FreqArg.held) A ali s.1).2 = _
  unfold World.newTrans
  rcases h1 : newTransObj a b ali s.1 with ⟨w1, r⟩
  cases r with
  | error e => rw [PyM.bind_err h1, PyM.bind_err h1]
  | ok t =>
    rw [PyM.bind_ok h1, PyM.bind_ok h1]
    have key : ∀ f, (newTransAttrs t f A w1).2 = (newTransAttrs t none A w1).2 := by
      intro f
      unfold newTransAttrs
      cases A with
      | bad e => rfl
      | none =>
        cases w1.transAllowed (w1.tr t).e1 (w1.tr t).e2 with
        | error e => rfl
        | ok al =>
          simp only [setTr, upd, if_true]
          cases (w1.tr t).ali with
          | none => rfl
          | some al' => simp only; split <;> rfl
      | hz x =>
        cases w1.transAllowed (w1.tr t).e1 (w1.tr t).e2 with
        | error e => rfl
        | ok al =>
          simp only [setTr, upd, if_true]
          cases (w1.tr t).ali with
          | none => rfl
          | some al' => simp only; split <;> rfl
    rcases h2 : newTransAttrs t (q.map FreqArg.held) A w1 with ⟨w2, r2⟩
    rcases h3 : newTransAttrs t none A w1 with ⟨w3, r3⟩
    have := key (q.map FreqArg.held)
    rw [h2, h3] at this
    simp only at this
    subst this
    cases r2 with
    | error e => rw [PyM.bind_err h2, PyM.bind_err h3]
    | ok u => rw [PyM.bind_ok h2, PyM.bind_ok h3]; rfl

/-- Made between levels of the atom it is in the atom at once, with what was given stored; no energy moves. -/
theorem C175_made {w : World} {bad : Bad} (hr : ReachableQ (w, bad)) {a b : Nat} (q : FreqArg) {A : AArg} {ali : Option Str}
    (hs : (Op.newTrans a b none A ali).Sane w) :
    let s := (newTransQ a b (some q) A ali (w, bad)).1
    (newTransQ a b (some q) A ali (w, bad)).2 = .ok w.ntr ∧ SetEdge s.1 (w.lname a) (w.lname b) w.ntr q.held ∧ s.2 w.ntr = q.err ∧
      (∀ i, s.1.eHz i = w.eHz i) ∧ ∀ t < w.ntr, s.1.tr t = w.tr t ∧ s.2 t = bad t := by
  obtain ⟨h1, h2, h3, h4, h5, h6, -⟩ := addPairQ_eq hr.wf bad idOrd (some q) hs
  refine ⟨h1, ⟨h2, h3⟩, by rw [h4]; exact upd_same .., fun i => by unfold World.eHz; rw [h6], fun t ht => ⟨h5 t ht, ?_⟩⟩
  rw [h4]; exact upd_ne _ _ _ (Nat.ne_of_lt ht)

/-- `add_transition` raises the error of the conversion if the new transition is in no loop and every other frequency can be converted; the transition stays in
the atom, and so does what was given. -/
theorem C175_raises_partial {w : World} {bad : Bad} (hr : ReachableQ (w, bad)) {σ : Ord'} (hσ : Shuffles σ) {a b : Nat} {q : FreqArg} {e : PyErr} {A : AArg}
    {ali : Option Str} (hs : (Op.newTrans a b none A ali).Sane w) (hq : q.err = some e) (hg : ∀ n m t f, SetEdge w n m t f → bad t = none)
    (hlf : LoopFree (newTransQ a b (some q) A ali (w, bad)).1.1 (SetConn (newTransQ a b (some q) A ali (w, bad)).1.1 (w.lname a))) :
    ∃ w', addPairQ σ a b (some q) A ali (w, bad) = ((w', upd bad w.ntr (some e)), .error e) ∧ SetEdge w' (w.lname a) (w.lname b) w.ntr q.held ∧
      ∀ n m t f, SetEdge w' n m t f → t ≠ w.ntr → upd bad w.ntr (some e) t = none := by
  have hw : WF w := hr.wf
  have hwf := newTransQ_wf hw bad (some q) hs
  obtain ⟨h1, h2, h3, h4, h5, h6, h7, h8, h9, h10, h11, h12⟩ := addPairQ_eq hw bad σ (some q) hs
  set s := (newTransQ a b (some q) A ali (w, bad)).1 with hsd
  have hb : s.2 = upd bad w.ntr (some e) := by rw [h4]; show upd bad w.ntr q.err = _; rw [hq]
  have hgood : ∀ n m t f, SetEdge s.1 n m t f → t ≠ w.ntr → upd bad w.ntr (some e) t = none := by
    intro n m t f he hne
    rw [upd_ne _ _ _ hne]
    have hlt : t < w.ntr := by
      have := (hwf.edge _ _ _ he.1).1
      rw [h11] at this; omega
    refine hg n m t f ⟨?_, by rw [← h5 t hlt]; exact he.2⟩
    by_cases hc : n = w.lname a ∧ m = w.lname b ∨ n = w.lname b ∧ m = w.lname a
    · exfalso
      apply hne
      have h2' : s.1.g.adj n m = some w.ntr := by
        rcases hc with ⟨rfl, rfl⟩ | ⟨rfl, rfl⟩
        · exact h2
        · rw [hwf.gok.symm]; exact h2
      rw [he.1] at h2'; exact Option.some.inj h2'
    · rw [← h8 n m hc]; exact he.1
  obtain ⟨w', x, t', n', m', f', k1, k2, k3, k4, k5, k6⟩ := enforceB_raises s.2 hwf hσ none (n := w.lname a) (m := w.lname b) (t := w.ntr) (f := q.held)
    ⟨h2, h3⟩ (fun p hp => by cases hp) hlf (by rw [hb]; simp [upd])
  have htt : t' = w.ntr := by
    by_contra hne
    rw [hb, hgood n' m' t' f' k3 hne] at k2; cases k2
  subst htt
  have hx : x = e := by rw [hb] at k2; simp [upd] at k2; exact k2.symm
  subst hx
  have hse : ∀ n m t f, SetEdge w' n m t f ↔ SetEdge s.1 n m t f := by
    intro n m t f; unfold SetEdge; rw [k5.g, k5.tr]
  refine ⟨w', ?_, (hse _ _ _ _).2 ⟨h2, h3⟩, fun n m t f he => hgood n m t f ((hse _ _ _ _).1 he)⟩
  rw [h12]
  simp only [k1]; rw [hb]

/-- From then on every `add_transition` with a frequency raises, whatever the frequency and however far away the levels; each time the transition is added all the
same. -/
theorem C175_poisoned {w : World} {bad : Bad} (hr : ReachableQ (w, bad)) {σ : Ord'} (hσ : Shuffles σ) {n m : Str} {t : Nat} {f : ℚ}
    (he : SetEdge w n m t f) (hb : bad t ≠ none) (hlf : LoopFree w (SetConn w n)) {a b : Nat} (q : FreqArg) {A : AArg} {ali : Option Str}
    (hs : (Op.newTrans a b none A ali).Sane w) (hna : ¬SetConn w n (w.lname a)) (hnb : ¬SetConn w n (w.lname b)) :
    ∃ w' e, addPairQ σ a b (some q) A ali (w, bad) = ((w', upd bad w.ntr q.err), .error e) ∧ SetEdge w' (w.lname a) (w.lname b) w.ntr q.held ∧
      SetEdge w' n m t f ∧ upd bad w.ntr q.err t ≠ none := by
  have hw : WF w := hr.wf
  have hwf := newTransQ_wf hw bad (some q) hs
  obtain ⟨h1, h2, h3, h4, h5, h6, h7, h8, h9, h10, h11, h12⟩ := addPairQ_eq hw bad σ (some q) hs
  set s := (newTransQ a b (some q) A ali (w, bad)).1 with hsd
  have hedge : ∀ u v t f, SetConn w n u → (SetEdge s.1 u v t f ↔ SetEdge w u v t f) := by
    intro u v t f hu
    have hc : ¬(u = w.lname a ∧ v = w.lname b ∨ u = w.lname b ∧ v = w.lname a) := by
      rintro (⟨rfl, _⟩ | ⟨rfl, _⟩)
      · exact hna hu
      · exact hnb hu
    constructor
    · rintro ⟨k1, k2⟩
      rw [h8 u v hc] at k1
      have hlt := (hw.edge _ _ _ k1).1
      exact ⟨k1, by rw [← h5 t hlt]; exact k2⟩
    · rintro ⟨k1, k2⟩
      have hlt := (hw.edge _ _ _ k1).1
      exact ⟨by rw [h8 u v hc]; exact k1, by rw [h5 t hlt]; exact k2⟩
  have hconn : SetConn s.1 n = SetConn w n := by
    funext x
    apply propext
    constructor
    · intro h
      induction h with
      | refl => exact .refl
      | tail _ h2 ih =>
        obtain ⟨t, f, h⟩ := h2
        exact ih.tail ⟨t, f, (hedge _ _ t f ih).1 h⟩
    · intro h
      induction h with
      | refl => exact .refl
      | tail h1 h2 ih =>
        obtain ⟨t, f, h⟩ := h2
        exact ih.tail ⟨t, f, (hedge _ _ t f h1).2 h⟩
  have hlf' : LoopFree s.1 (SetConn s.1 n) := by
    rw [hconn]
    refine ⟨?_, fun k t f hk h => hlf.2 k t f hk ((hedge _ _ t f hk).1 h)⟩
    have : (fun a b => SetConn w n a ∧ SetConn w n b ∧ ∃ t f, SetEdge s.1 a b t f) = fun a b => SetConn w n a ∧ SetConn w n b ∧ ∃ t f, SetEdge w a b t f := by
      funext x y
      apply propext
      constructor
      · rintro ⟨k1, k2, t, f, k3⟩; exact ⟨k1, k2, t, f, (hedge _ _ t f k1).1 k3⟩
      · rintro ⟨k1, k2, t, f, k3⟩; exact ⟨k1, k2, t, f, (hedge _ _ t f k1).2 k3⟩
    rw [this]; exact hlf.1
  have hlt := (hw.edge _ _ _ he.1).1
  have hbt : upd bad w.ntr q.err t ≠ none := by rw [upd_ne _ _ _ (Nat.ne_of_lt hlt)]; exact hb
  have hb2 : s.2 = upd bad w.ntr q.err := h4
  obtain ⟨w', x, t', n', m', f', k1, k2, k3, k4, k5, k6⟩ := enforceB_raises s.2 hwf hσ none ((hedge n m t f .refl).2 he) (fun p hp => by cases hp) hlf'
    (by rw [hb2]; exact hbt)
  have hse : ∀ n m t f, SetEdge w' n m t f ↔ SetEdge s.1 n m t f := by
    intro n m t f; unfold SetEdge; rw [k5.g, k5.tr]
  refine ⟨w', x, ?_, (hse _ _ _ _).2 ⟨h2, h3⟩, (hse _ _ _ _).2 ((hedge n m t f .refl).2 he), hbt⟩
  rw [h12]
  simp only [k1]; rw [hb2]

/-- Without a frequency transitions can be added as before. -/
theorem C175_without {w : World} {bad : Bad} (hr : ReachableQ (w, bad)) (σ : Ord') {a b : Nat} {A : AArg} {ali : Option Str}
    (hs : (Op.newTrans a b none A ali).Sane w) : ∃ w', addPairQ σ a b none A ali (w, bad) = ((w', upd bad w.ntr none), .ok w.ntr) ∧
      w'.g.adj (w.lname a) (w.lname b) = some w.ntr ∧ ∀ i, w'.eHz i = w.eHz i := by
  obtain ⟨h1, h2, h3, h4, h5, h6, h7, h8, h9, h10, h11, h12⟩ := addPairQ_eq hr.wf bad σ none hs
  refine ⟨_, ?_, h2, fun i => by unfold World.eHz; rw [h6]⟩
  rw [h12]
  exact Prod.ext (Prod.ext rfl h4) rfl

/-- A frequency that can be converted, set afterwards, repairs the atom: it is as if it had been set in an atom without any that cannot. -/
theorem C175_repaired {w : World} {bad : Bad} (hr : ReachableQ (w, bad)) {σ τ : Ord'} (hσ : Shuffles σ) (hτ : Shuffles τ) {a b : Nat} {q : FreqArg} {e : PyErr}
    {A : AArg} {ali : Option Str} (hs : (Op.newTrans a b none A ali).Sane w) (hq : q.err = some e) (hg : ∀ n m t f, SetEdge w n m t f → bad t = none)
    (hlf : LoopFree (newTransQ a b (some q) A ali (w, bad)).1.1 (SetConn (newTransQ a b (some q) A ali (w, bad)).1.1 (w.lname a))) {g : Qty} {f : ℚ}
    (hf : g.toHz = .ok f) :
    let s := (addPairQ σ a b (some q) A ali (w, bad)).1
    setFrequencyQ τ w.ntr (.qty g) s = (((setFrequency τ w.ntr f s.1).1, upd s.2 w.ntr none), (setFrequency τ w.ntr f s.1).2) ∧
      ∀ n m t f, SetEdge s.1 n m t f → upd s.2 w.ntr none t = none := by
  intro s
  have hrs : ReachableQ s := hr.add hσ (some q) hs
  obtain ⟨w', k1, k2, k3⟩ := C175_raises_partial hr hσ hs hq hg hlf
  have hsd : s = (w', upd bad w.ntr (some e)) := by show (addPairQ σ a b (some q) A ali (w, bad)).1 = _; rw [k1]
  have hwf := newTransQ_wf hr.wf bad (some q) hs
  obtain ⟨-, h2, -, -, -, h6, -, -, h9, h10, -, h12⟩ := addPairQ_eq hr.wf bad σ (some q) hs
  have hf' : EFrame (newTransQ a b (some q) A ali (w, bad)).1.1 w' := by
    have := enforceB_eframe (newTransQ a b (some q) A ali (w, bad)).1.2 hwf hσ none
    rw [h12] at k1
    rcases hE : enforceB (newTransQ a b (some q) A ali (w, bad)).1.2 σ none (newTransQ a b (some q) A ali (w, bad)).1.1 with ⟨x, r⟩
    rw [hE] at this
    simp only [hE] at k1
    cases r with
    | ok u => simp at k1
    | error y =>
      simp only [Prod.mk.injEq] at k1
      rw [← k1.1.1]; exact this
  have hin : InAtom w' w.ntr := by
    unfold InAtom
    rw [hf'.tr, h9, h10]
    have hl : ∀ i, w'.lname i = w.lname i := by
      intro i
      show (w'.lv i).term.name = _
      rw [(hf'.frame).term i, h6]; rfl
    rw [hl, hl]; exact k2.1
  rw [hsd] at hrs ⊢
  refine ⟨C170_elsewhere hrs hτ hin hf (fun n m t' f' he hne _ => k3 n m t' f' he hne), fun n m t f he => ?_⟩
  by_cases h : t = w.ntr
  · subst h; exact upd_same ..
  · rw [upd_ne _ _ _ h]; exact k3 n m t f he h

/-- If the constructor raises, so does `add_transition`, and what the constructor has put into the atom by then makes every enforcement raise (C47). -/
theorem C175_refused {w w' : World} {bad : Bad} (hr : Reachable w) {a b : Nat} {q : Option FreqArg} {A : AArg} {ali : Option Str} {e : PyErr} (σ : Ord')
    (ha : (w.lv a).inAtom = true) (h : World.newTrans a b (q.map FreqArg.held) A ali w = (w', .error e)) :
    (addPairQ σ a b q A ali (w, bad)).2 = .error e ∧ (addPairQ σ a b q A ali (w, bad)).1.1 = w' ∧ ∀ σ' trig, (enforce σ' trig w').2 = .error .AttributeError := by
  have h1 : newTransQ a b q A ali (w, bad) = ((w', upd bad w.ntr (q.bind FreqArg.err)), .error e) := by
    unfold newTransQ
    simp only [h]
  unfold addPairQ
  rw [h1]
  exact ⟨rfl, rfl, fun σ' trig => by rw [C47_poisoned w w' a b _ A ali e hr ha h σ' trig]⟩

/-- A transition made outside the atom comes in with `add_transition`, whatever the call raises. -/
theorem C175_object {w : World} {bad : Bad} {σ : Ord'} (hσ : Shuffles σ) {t : Nat} (hw : WF (trAddToAtom t w).1) :
    (addTransitionQ σ t (w, bad)).1.1.g.adj (w.lname (w.tr t).lower) (w.lname (w.tr t).upper) = some t ∧ (addTransitionQ σ t (w, bad)).1.2 = bad := by
  have hg : (trAddToAtom t w).1.g.adj (w.lname (w.tr t).lower) (w.lname (w.tr t).upper) = some t := by
    rw [trAddToAtom_fst]
    show (w.g.addEdge _ _ t).adj _ _ = _
    rw [Graph.adj_addEdge, if_pos (.inl ⟨rfl, rfl⟩)]
  unfold addTransitionQ
  rcases k : trAddToAtom t w with ⟨w1, _ | _⟩
  · rw [k] at hg
    simp only
    exact ⟨hg, trivial⟩
  · rw [k] at hg hw
    simp only at hg hw ⊢
    have hf := regTAlias_frame t w1
    rcases k2 : regTAlias t w1 with ⟨w2, _ | _⟩
    · rw [k2] at hf
      simp only
      exact ⟨by rw [hf.g]; exact hg, trivial⟩
    · rw [k2] at hf
      have hw2 := hw.frame hf
      simp only at hf hw2 ⊢
      have hg2 : w2.g.adj (w.lname (w.tr t).lower) (w.lname (w.tr t).upper) = some t := by rw [hf.g]; exact hg
      split
      · split
        · simp only
          exact ⟨by rw [(enforceB_eframe bad hw2 hσ none).g]; exact hg2, trivial⟩
        · exact ⟨hg2, rfl⟩
      · exact ⟨hg2, rfl⟩

/-! ## A case: four levels g, a, b, c without transitions -/

/-- The levels. -/
def fourLevels : World := runAll (threeLevels 0 1 2 ++ [.newLevel (demoTerm 'c') 3 0 0 0 0 none, .addLevel 3 false none]) (emptyAtom 0 0)

theorem fourLevels_reachable : ReachableQ (fourLevels, fun _ => none) := .start (demo_reachable (by decide +kernel))

theorem fourLevels_free (n m : Str) (t : Nat) (f : ℚ) : ¬SetEdge fourLevels n m t f := fun h =>
  forall_setEdge (w := fourLevels) (P := fun _ _ _ _ => False) (by decide +kernel) h

/-- `atom.add_transition((g, a), freq=5)`: the number has no unit. -/
example : ∃ w', addPairQ idOrd 0 1 (some plainNumber) .none none (fourLevels, fun _ => none) = ((w', upd (fun _ => none) 0 (some .AttributeError)), .error .AttributeError) ∧
    SetEdge w' (demoName 'g') (demoName 'a') 0 5 ∧ ∀ n m t f, SetEdge w' n m t f → t ≠ 0 → upd (fun _ => none) 0 (some PyErr.AttributeError) t = none :=
  C175_raises_partial fourLevels_reachable idOrd_shuffles (by decide +kernel) (by decide +kernel) (fun _ _ _ _ _ => rfl)
    (loopFree_of_parent chainPar chainRk (by decide +kernel) _)

/-- The atom after that call. -/
def badOnce : World × Bad := (addPairQ idOrd 0 1 (some plainNumber) .none none (fourLevels, fun _ => none)).1

theorem badOnce_reachable : ReachableQ badOnce := fourLevels_reachable.add idOrd_shuffles _ (by decide +kernel)

theorem badOnce_group {x : Str} (h : SetConn badOnce.1 (demoName 'g') x) : x = demoName 'g' ∨ x = demoName 'a' := by
  induction h with
  | refl => exact .inl rfl
  | tail _ h ih =>
    obtain ⟨t, f, h⟩ := h
    exact forall_setEdge (w := badOnce.1) (P := fun u v _ _ => u = demoName 'g' ∨ u = demoName 'a' → v = demoName 'g' ∨ v = demoName 'a') (by decide +kernel) h ih

/-- `atom.add_transition((b, c), freq=1 Hz)` raises afterwards. -/
example : ∃ w' e, addPairQ idOrd 2 3 (some (.qty ⟨1, .freq 1⟩)) .none none badOnce = ((w', upd badOnce.2 1 none), .error e) ∧
    SetEdge w' (demoName 'b') (demoName 'c') 1 1 ∧ SetEdge w' (demoName 'g') (demoName 'a') 0 5 ∧ upd badOnce.2 1 none 0 ≠ none := by
  have h := C175_poisoned (w := badOnce.1) (bad := badOnce.2) badOnce_reachable idOrd_shuffles (n := demoName 'g') (m := demoName 'a') (t := 0) (f := 5) (by decide +kernel)
    (by decide +kernel) (loopFree_of_parent chainPar chainRk (by decide +kernel) _) (.qty ⟨1, .freq 1⟩) (a := 2) (b := 3) (A := .none) (ali := none)
    (by decide +kernel) (fun h => absurd (badOnce_group h) (by decide +kernel)) (fun h => absurd (badOnce_group h) (by decide +kernel))
  rw [show badOnce.1.ntr = 1 by decide +kernel, show badOnce.1.lname 2 = demoName 'b' by decide +kernel, show badOnce.1.lname 3 = demoName 'c' by decide +kernel,
    show (FreqArg.qty ⟨1, .freq 1⟩).held = 1 by decide +kernel] at h
  exact h

/-- It did before. -/
example : (addPairQ idOrd 2 3 (some (.qty ⟨1, .freq 1⟩)) .none none (fourLevels, fun _ => none)).2 = .ok 0 ∧ (addPairQ idOrd 2 3 none .none none badOnce).2 = .ok 1 := by
  decide +kernel

/-- 4 Hz for g-a repairs the atom. -/
example : (setFrequencyQ idOrd 0 (.qty ⟨4, .freq 1⟩) badOnce).2 = .ok () ∧
    (addPairQ idOrd 2 3 (some (.qty ⟨1, .freq 1⟩)) .none none (setFrequencyQ idOrd 0 (.qty ⟨4, .freq 1⟩) badOnce).1).2 = .ok 1 := by decide +kernel

/-- C175 is false: the transition is added. -/
theorem C175_fails : ¬C175_full := by
  intro h
  have := (h fourLevels (fun _ => none) idOrd 0 1 plainNumber .none none fourLevels_reachable idOrd_shuffles (by decide +kernel) (by decide +kernel)).2
  have e := congrArg (fun g : Graph => g.adj (demoName 'g') (demoName 'a')) this
  revert e
  decide +kernel

/-- And it need not raise: closing a loop with the number 5, it depends on the order of the neighbours. -/
theorem C175_loop : (addPairQ idOrd 0 2 (some plainNumber) .none none (chain 1 1, fun _ => none)).2 = .ok 2 ∧
    (addPairQ revOrd 0 2 (some plainNumber) .none none (chain 1 1, fun _ => none)).2 = .error .AttributeError := by
  decide +kernel

/-- A linewidth that is none: the error of the constructor. -/
example : (addPairQ idOrd 0 1 (some plainNumber) (.bad .DimensionalityError) none (fourLevels, fun _ => none)).2 = .error .DimensionalityError :=
  (C175_refused (bad := fun _ => none) (w := fourLevels) (w' := (World.newTrans 0 1 (some 5) (.bad .DimensionalityError) none fourLevels).1) (q := some plainNumber)
    (demo_reachable (by decide +kernel)) idOrd (by decide +kernel)
    (show World.newTrans 0 1 (some 5) (.bad .DimensionalityError) none fourLevels = _ from Prod.ext rfl (by decide +kernel))).1

/-- A transition lost by deleting a level and adding it again. -/
def outsideOps : List Op := threeLevels 0 5 9 ++ [.newTrans 0 1 none .none none, .delItem (demoName 'a'), .addLevel 1 false none]

example : (runAll outsideOps (emptyAtom 0 0)).g.adj (demoName 'g') (demoName 'a') = none ∧
    (addTransitionQ idOrd 0 (runAll outsideOps (emptyAtom 0 0), fun _ => none)).1.1.g.adj (demoName 'g') (demoName 'a') = some 0 :=
  ⟨by decide +kernel, by
    have h := (C175_object (bad := fun _ => none) (w := runAll outsideOps (emptyAtom 0 0)) idOrd_shuffles
    ((demo_reachable (ops := outsideOps) (by decide +kernel)).wf.trAddToAtom 0 (by decide +kernel) (by decide +kernel) (by unfold Registered; decide +kernel)
      (by unfold Registered; decide +kernel) (by decide +kernel))).1
    rwa [show (runAll outsideOps (emptyAtom 0 0)).lname ((runAll outsideOps (emptyAtom 0 0)).tr 0).lower = demoName 'g' by decide +kernel,
      show (runAll outsideOps (emptyAtom 0 0)).lname ((runAll outsideOps (emptyAtom 0 0)).tr 0).upper = demoName 'a' by decide +kernel] at h⟩

end AtomTk
