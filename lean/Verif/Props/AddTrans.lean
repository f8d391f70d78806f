import Verif.Props.TransList

/-! # C132: adding a transition by a pair of levels -/

namespace AtomTk
open World

/-- The full claim: a pair of levels of the atom does the same as the pair of their names. -/
def C132_full : Prop := ∀ (w : World) (σ : Ord') (a b : Str) (ia ib : Nat) (Ja Jb : ℚ) (freq : Option ℚ) (A : AArg) (ali : Option Str),
  Reachable w → Shuffles σ → Plain w a → Plain w b → w.g.lev a = some ia → w.g.lev b = some ib →
  (w.lv ia).term.J = some Ja → (w.lv ib).term.J = some Jb → (∀ e, A ≠ .bad e) →
  addTransArg σ freq A ali (.levels ia ib) w = addTransArg σ freq A ali (.names a b) w

/-- C132: a pair of levels always makes a new transition, with the data given; the transition objects there before stay as they
are, and no other pair of levels is joined differently. -/
theorem C132_new {w : World} (hr : Reachable w) {σ : Ord'} (hσ : Shuffles σ) {a b : Str} {ia ib : Nat} {Ja Jb : ℚ} (freq : Option ℚ)
    (A : AArg) (ali : Option Str) (hA : ∀ e, A ≠ .bad e) (hla : w.g.lev a = some ia)
    (hlb : w.g.lev b = some ib) (hJa : (w.lv ia).term.J = some Ja) (hJb : (w.lv ib).term.J = some Jb) :
    ∃ w', addTransArg σ freq A ali (.levels ia ib) w = (w', .ok w.ntr) ∧ Reachable w' ∧
      w'.g.adj a b = some w.ntr ∧ w'.g.adj b a = some w.ntr ∧ (w'.tr w.ntr).e1 = ia ∧ (w'.tr w.ntr).e2 = ib ∧
      (w'.tr w.ntr).setFreq = freq ∧ (w'.tr w.ntr).A = A.rate ∧ (∀ t, t < w.ntr → w'.tr t = w.tr t) ∧
      ∀ c d, ¬((c = a ∧ d = b) ∨ (c = b ∧ d = a)) → w'.g.adj c d = w.g.adj c d := by
  obtain ⟨w', h, m, hr'⟩ := addTransLevels_spec hr hσ freq A ali hA hla hlb hJa hJb
  exact ⟨w', h, hr', m.adj, m.adj', m.e1, m.e2, m.freq, m.rate, m.old, m.rest⟩

/-- C132: as long as the pair of names is no key of the listing, the two calls do the same. -/
theorem C132_agree_partial {w : World} (hr : Reachable w) (σ : Ord') {a b : Str} {ia ib : Nat} (freq : Option ℚ) (A : AArg)
    (ali : Option Str) (ha : Plain w a) (hb : Plain w b) (hla : w.g.lev a = some ia) (hlb : w.g.lev b = some ib)
    (hno : (a, b) ∉ w.transKeys) :
    addTransArg σ freq A ali (.levels ia ib) w = addTransArg σ freq A ali (.names a b) w :=
  (addTransPair_eq hr σ freq A ali ha hb hla hlb hno).symm

/-- C132: a transition that joined the two levels is no longer in the atom afterwards. -/
theorem C132_replaces {w : World} (hr : Reachable w) {σ : Ord'} (hσ : Shuffles σ) {a b : Str} {ia ib t : Nat} {Ja Jb : ℚ}
    (freq : Option ℚ) (A : AArg) (ali : Option Str) (hA : ∀ e, A ≠ .bad e) (hla : w.g.lev a = some ia) (hlb : w.g.lev b = some ib)
    (hJa : (w.lv ia).term.J = some Ja) (hJb : (w.lv ib).term.J = some Jb) (hadj : w.g.adj a b = some t) :
    t ∈ w.transVals ∧ t ∉ (addTransArg σ freq A ali (.levels ia ib) w).1.transVals := by
  obtain ⟨w', h, m, hr'⟩ := addTransLevels_spec hr hσ freq A ali hA hla hlb hJa hJb
  obtain ⟨g1, -⟩ := hr.wf.edge _ _ _ hadj
  refine ⟨?_, fun hm => ?_⟩
  · rcases le_total (w.levelNames.idxOf a) (w.levelNames.idxOf b) with hle | hle
    · obtain ⟨t', ht'⟩ := (Dict.get?_isSome _ _).2 ((mem_edge_keys hr a b).2 ⟨⟨t, hadj⟩, hle⟩)
      have hm := Dict.mem_of_get? ht'
      have := ((Graph.mem_edges hr.wf.gok _ _ _).1 hm).1
      rw [hadj] at this
      cases this
      exact List.mem_map.2 ⟨_, hm, rfl⟩
    · have hba : w.g.adj b a = some t := by rw [hr.wf.gok.symm]; exact hadj
      obtain ⟨t', ht'⟩ := (Dict.get?_isSome _ _).2 ((mem_edge_keys hr b a).2 ⟨⟨t, hba⟩, hle⟩)
      have hm := Dict.mem_of_get? ht'
      have := ((Graph.mem_edges hr.wf.gok _ _ _).1 hm).1
      rw [hba] at this
      cases this
      exact List.mem_map.2 ⟨_, hm, rfl⟩
  · rw [show addTransArg σ freq A ali (.levels ia ib) w = (w', .ok w.ntr) from h] at hm
    obtain ⟨⟨⟨c, d⟩, t'⟩, hm', rfl⟩ := List.mem_map.1 hm
    have hm2 := ((Graph.mem_edges hr'.wf.gok _ _ _).1 hm').1
    by_cases hcd : (c = a ∧ d = b) ∨ (c = b ∧ d = a)
    · have : w'.g.adj c d = some w.ntr := by
        rcases hcd with ⟨rfl, rfl⟩ | ⟨rfl, rfl⟩
        · exact m.adj
        · exact m.adj'
      rw [this] at hm2
      cases hm2
      omega
    · rw [m.rest c d hcd] at hm2
      have b1 := adj_between hr hm2
      have b2 := adj_between hr hadj
      apply hcd
      unfold Between at b1 b2
      rcases b1 with ⟨e1, e2⟩ | ⟨e1, e2⟩ <;> rcases b2 with ⟨e3, e4⟩ | ⟨e3, e4⟩ <;> rw [e1, e2, e3, e4] <;> tauto

/-- C132: two levels that are not in a pair, or a pair of anything else, raise and change nothing. -/
theorem C132_refused (σ : Ord') (freq : Option ℚ) (A : AArg) (ali : Option Str) (i j : Nat) (w : World) :
    addTransArg σ freq A ali (.two i j) w = (w, .error .TypeError) ∧ addTransArg σ freq A ali .other w = (w, .error .AttributeError) :=
  ⟨rfl, rfl⟩

/-- C132: a rate or frequency given along with a transition object has no effect. -/
theorem C132_ignored (σ : Ord') (freq freq' : Option ℚ) (A A' : AArg) (ali ali' : Option Str) (t : Nat) (w : World) :
    addTransArg σ freq A ali (.obj t) w = addTransArg σ freq' A' ali' (.obj t) w := rfl

/-- C132 fails: for two levels joined already the names give the transition that is there, the levels replace it. -/
theorem C132_fails : ¬C132_full := by
  intro h
  have hr : Reachable (runAll pairOps (emptyAtom 0 0)) := demo_reachable (by decide +kernel)
  have := congrArg (fun r => r.2) (h _ idOrd (demoName 'g') (demoName 'a') 0 1 (1/2) (1/2) none .none none hr idOrd_shuffles (by decide +kernel)
    (by decide +kernel) (by decide +kernel) (by decide +kernel) (by decide +kernel) (by decide +kernel) (by intro e; simp))
  revert this
  decide +kernel

example : let w := runAll pairOps (emptyAtom 0 0)
    w.g.lev (demoName 'g') = some 0 ∧ w.g.lev (demoName 'b') = some 2 ∧ (w.lv 0).term.J = some (1/2) ∧ (w.lv 2).term.J = some (1/2) ∧
    Plain w (demoName 'g') ∧ Plain w (demoName 'b') ∧ (demoName 'g', demoName 'b') ∉ w.transKeys ∧ w.g.adj (demoName 'g') (demoName 'a') = some 0 ∧
    (addTransArg idOrd (some 3) (.hz 1) none (.levels 0 2) w).1.transVals = [0, 1] ∧
    (addTransArg idOrd (some 3) (.hz 1) none (.levels 0 1) w).1.transVals = [1] := by
  decide +kernel

end AtomTk
