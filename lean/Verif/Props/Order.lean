import Verif.Props.Container

/-!
# The order of construction: C149
-/

namespace AtomTk
open Util World

/-- The atom has a level of this name and this energy. -/
def HasLevel (w : World) (n : Str) (e : ℚ) : Prop := ∃ i, w.g.lev n = some i ∧ w.eHz i = e

/-- Names and energies of all levels in the order of their rank. -/
def ranking (w : World) : List (Str × ℚ) := w.sortedLevels.map fun i => (w.lname i, w.eHz i)

theorem mem_ranking {w : World} (hr : Reachable w) (n : Str) (e : ℚ) : (n, e) ∈ ranking w ↔ HasLevel w n e := by
  have hn := Graph.nodup_levelAttrs w.g hr.wf.gok.nodup
  unfold ranking HasLevel
  rw [List.mem_map]
  constructor
  · rintro ⟨i, hi, he⟩
    rw [Prod.mk.injEq] at he
    have hv : i ∈ w.g.levelAttrs.vals := (pySorted_perm _ _).mem_iff.1 hi
    obtain ⟨p, hp, rfl⟩ := List.mem_map.1 hv
    have := (Dict.mem_iff hn p.1 p.2).1 hp
    rw [Graph.get?_levelAttrs _ hr.wf.gok.nodup] at this
    refine ⟨p.2, ?_, he.2⟩
    rw [← he.1, (hr.wf.node _ _ this).1]
    exact this
  · rintro ⟨i, hi, he⟩
    refine ⟨i, ?_, by rw [(hr.wf.node _ _ hi).1, he]⟩
    have : (n, i) ∈ w.g.levelAttrs := (Dict.mem_iff hn n i).2 (by rw [Graph.get?_levelAttrs _ hr.wf.gok.nodup]; exact hi)
    exact (pySorted_perm _ _).mem_iff.2 (List.mem_map.2 ⟨_, this, rfl⟩)

theorem ranking_nodup {w : World} (hr : Reachable w) : (ranking w).Nodup := by
  unfold ranking
  have h1 : w.sortedLevels.Nodup := (pySorted_perm _ _).nodup_iff.2 (C17_once hr)
  refine List.Nodup.map_on ?_ h1
  intro a ha b hb he
  have hl : ∀ i ∈ w.sortedLevels, w.g.lev (w.lname i) = some i := by
    intro i hi
    obtain ⟨j, hj, -⟩ := (mem_ranking hr (w.lname i) (w.eHz i)).1 (List.mem_map.2 ⟨i, hi, rfl⟩)
    have hv : i ∈ w.g.levelAttrs.vals := (pySorted_perm _ _).mem_iff.1 hi
    obtain ⟨p, hp, rfl⟩ := List.mem_map.1 hv
    have := (Dict.mem_iff (Graph.nodup_levelAttrs w.g hr.wf.gok.nodup) p.1 p.2).1 hp
    rw [Graph.get?_levelAttrs _ hr.wf.gok.nodup] at this
    rw [(hr.wf.node _ _ this).1]
    exact this
  have := hl a ha
  rw [(Prod.mk.inj he).1, hl b hb] at this
  exact (Option.some.inj this).symm

theorem ranking_sorted (w : World) : (ranking w).Pairwise fun p q => p.2 ≤ q.2 := by
  unfold ranking
  rw [List.pairwise_map]
  have := pySorted_pairwise (fun a b => decide (w.eHz a ≤ w.eHz b)) (by
    intro a b; simp only [decide_eq_true_eq]; exact le_total _ _) (by
    intro a b c h1 h2; simp only [decide_eq_true_eq] at *; exact h1.trans h2) w.g.levelAttrs.vals
  unfold sortedLevels
  simpa using this

theorem pyIndex_map {α β : Type} (f : α → β) (l : List α) (n : Int) : pyIndex (l.map f) n = (pyIndex l n).map f := by
  unfold pyIndex
  simp only [List.length_map, List.getElem?_map]
  generalize (if n < 0 then n + (l.length : Int) else n) = j
  split
  · rfl
  · cases l[j.toNat]? <;> rfl

/-- C149: two atoms with levels of the same names and energies, however they were made, have levels of the same energy at every rank; and
the same level at every rank if no two energies are equal. -/
theorem C149_rank {w w' : World} (hr : Reachable w) (hr' : Reachable w') (h : ∀ n e, HasLevel w n e ↔ HasLevel w' n e) :
    (∀ n : Int, (levelsGetInt n w).map w.eHz = (levelsGetInt n w').map w'.eHz) ∧
    ((∀ n n' e, HasLevel w n e → HasLevel w n' e → n = n') →
      ∀ n : Int, (levelsGetInt n w).map w.lname = (levelsGetInt n w').map w'.lname) := by
  have hp : (ranking w).Perm (ranking w') := by
    refine (List.perm_ext_iff_of_nodup (ranking_nodup hr) (ranking_nodup hr')).2 ?_
    rintro ⟨n, e⟩
    rw [mem_ranking hr, mem_ranking hr']
    exact h n e
  constructor
  · intro n
    have he : (ranking w).map Prod.snd = (ranking w').map Prod.snd := by
      refine (hp.map _).eq_of_pairwise (le := (· ≤ ·)) (fun a b _ _ h1 h2 => le_antisymm h1 h2) ?_ ?_
      · rw [List.pairwise_map]; exact ranking_sorted w
      · rw [List.pairwise_map]; exact ranking_sorted w'
    have e1 : ∀ v : World, (ranking v).map Prod.snd = v.sortedLevels.map v.eHz := by
      intro v; unfold ranking; rw [List.map_map]; rfl
    unfold levelsGetInt
    rw [← pyIndex_map, ← pyIndex_map, ← e1, ← e1, he]
  · intro hd n
    have he : ranking w = ranking w' := by
      refine hp.eq_of_pairwise (le := fun p q => p.2 ≤ q.2) ?_ (ranking_sorted w) (ranking_sorted w')
      rintro ⟨a, x⟩ ⟨b, y⟩ ha hb h1 h2
      have hxy : x = y := le_antisymm h1 h2
      subst hxy
      rw [hd a b x ((mem_ranking hr _ _).1 ha) ((h _ _).2 ((mem_ranking hr' _ _).1 hb))]
    have e1 : ∀ v : World, (ranking v).map Prod.fst = v.sortedLevels.map v.lname := by
      intro v; unfold ranking; rw [List.map_map]; rfl
    unfold levelsGetInt
    rw [← pyIndex_map, ← pyIndex_map, ← e1, ← e1, he]

/-! ## Atoms built level by level -/

/-- The arguments of a level. -/
structure LevelSpec where
  term : Term
  E : ℚ
  lande : ℚ
  A : ℚ
  B : ℚ
  C : ℚ

/-- `for s in specs: atom.add_level(EnergyLevel(...))`, the first level object being number `k`. -/
def buildOps : Nat → List LevelSpec → List Op
  | _, [] => []
  | k, s :: l => .newLevel s.term s.E s.lande s.A s.B s.C none :: .addLevel k true none :: buildOps (k + 1) l

/-- One level made and added. -/
theorem build_step (s : LevelSpec) (w : World) :
    let w1 := ((Op.newLevel s.term s.E s.lande s.A s.B s.C none).run w).1
    let w2 := ((Op.addLevel w.nlv true none).run w1).1
    w1.lname w.nlv = s.term.name ∧ w1.g = w.g ∧ w1.nlv = w.nlv + 1 ∧ w2.nlv = w.nlv + 1 ∧ w2.g = w.g.addNode s.term.name w.nlv ∧
      w2.eHz w.nlv = s.E ∧ ∀ i, i < w.nlv → w2.eHz i = w.eHz i := by
  intro w1 w2
  have e1 : w1 = { w with nlv := w.nlv + 1, lv := upd w.lv w.nlv ⟨s.term, s.E, s.lande, s.A, s.B, s.C, none, false, false, []⟩ } := rfl
  have n1 : w1.lname w.nlv = s.term.name := by rw [e1]; simp [World.lname]
  set w3 : World := { w1 with lv := upd w1.lv w.nlv { w1.lv w.nlv with inAtom := true }, g := w1.g.addNode (w1.lname w.nlv) w.nlv } with hw3
  have e2 : (Op.addLevel w.nlv true none).run w1 = populateHF w.nlv w3 := by
    show addLevel w.nlv true none w1 = _
    unfold addLevel
    rw [PyM.bind_ok (show lvAddToAtom w.nlv w1 = (w3, .ok ()) from rfl), PyM.bind_ok (show setAliasOpt w.nlv none w3 = (w3, .ok ()) from rfl)]
    have : regAlias w.nlv w3 = (w3, .ok ()) := by
      unfold regAlias
      have : (w3.lv w.nlv).ali = none := by rw [hw3, e1]; simp
      rw [this]
    rw [PyM.bind_ok this]
    rfl
  have l : LFrame w3 w2 := by
    show LFrame w3 ((Op.addLevel w.nlv true none).run w1).1
    rw [e2]
    exact populateHF_frame _ _
  have en : ∀ i, w2.eHz i = w3.eHz i := by
    intro i
    obtain ⟨q, hq⟩ := l.lv i
    unfold World.eHz
    rw [hq]
  refine ⟨n1, rfl, rfl, l.nlv, ?_, ?_, fun i hi => ?_⟩
  · rw [l.g]
    show w1.g.addNode (w1.lname w.nlv) w.nlv = _
    rw [n1]
    rfl
  · rw [en, hw3, e1]; simp [World.eHz]
  · rw [en, hw3, e1]
    simp [World.eHz, upd_ne _ _ _ (Nat.ne_of_lt hi)]

theorem build_spec (l : List LevelSpec) (w : World) (hn : ∀ n i, w.g.lev n = some i → i < w.nlv)
    (hd : (l.map fun s => s.term.name).Nodup) (hw : ∀ s ∈ l, w.g.lev s.term.name = none) :
    SaneAll (buildOps w.nlv l) w ∧ ∀ n e, HasLevel (runAll (buildOps w.nlv l) w) n e ↔
      ((∃ s ∈ l, s.term.name = n ∧ s.E = e) ∨ HasLevel w n e) := by
  induction l generalizing w with
  | nil => exact ⟨trivial, fun n e => by simp [buildOps, runAll]⟩
  | cons s l ih =>
    obtain ⟨h1, h2, h3, h4, h5, h6, h7⟩ := build_step s w
    set w1 := ((Op.newLevel s.term s.E s.lande s.A s.B s.C none).run w).1
    set w2 := ((Op.addLevel w.nlv true none).run w1).1
    rw [List.map_cons, List.nodup_cons] at hd
    have hn2 : ∀ n i, w2.g.lev n = some i → i < w2.nlv := by
      intro n i h
      rw [h5, Graph.lev_addNode] at h
      rw [h4]
      split at h
      · rw [← Option.some.inj h]; exact Nat.lt_succ_self _
      · exact Nat.lt_succ_of_lt (hn n i h)
    have hw2 : ∀ s' ∈ l, w2.g.lev s'.term.name = none := by
      intro s' hs'
      rw [h5, Graph.lev_addNode, if_neg, hw s' (List.mem_cons_of_mem _ hs')]
      intro e
      exact hd.1 (List.mem_map.2 ⟨s', hs', e.symm⟩)
    obtain ⟨i1, i2⟩ := ih w2 hn2 hd.2 hw2
    rw [h4] at i1 i2
    refine ⟨⟨trivial, ⟨?_, .inl ?_⟩, i1⟩, fun n e => ?_⟩
    · show w.nlv < w1.nlv
      rw [h3]; exact Nat.lt_succ_self _
    · rw [h1, h2]; exact hw s List.mem_cons_self
    · show HasLevel (runAll (buildOps (w.nlv + 1) l) w2) n e ↔ _
      rw [i2]
      have h8 : HasLevel w2 n e ↔ (s.term.name = n ∧ s.E = e) ∨ HasLevel w n e := by
        unfold HasLevel
        simp only [h5, Graph.lev_addNode]
        by_cases hsn : s.term.name = n
        · subst hsn
          simp only [if_true, hw s List.mem_cons_self]
          constructor
          · rintro ⟨i, hi, he⟩
            rw [← Option.some.inj hi, h6] at he
            exact .inl ⟨trivial, he⟩
          · rintro (⟨-, he⟩ | ⟨i, hi, -⟩)
            · exact ⟨_, rfl, by rw [h6]; exact he⟩
            · cases hi
        · simp only [if_neg hsn]
          constructor
          · rintro ⟨i, hi, he⟩
            exact .inr ⟨i, hi, by rw [← h7 i (hn n i hi)]; exact he⟩
          · rintro (⟨h, -⟩ | ⟨i, hi, he⟩)
            · exact absurd h hsn
            · exact ⟨i, hi, by rw [h7 i (hn n i hi)]; exact he⟩
      rw [h8]
      simp only [List.mem_cons, exists_eq_or_imp]
      rw [or_left_comm, or_assoc]

/-- The atom with these levels. -/
def built (I B : ℚ) (l : List LevelSpec) : World := runAll (buildOps 0 l) (emptyAtom I B)

theorem built_spec (I B : ℚ) {l : List LevelSpec} (hd : (l.map fun s => s.term.name).Nodup) :
    Reachable (built I B l) ∧ ∀ n e, HasLevel (built I B l) n e ↔ ∃ s ∈ l, s.term.name = n ∧ s.E = e := by
  have hl : ∀ n, (emptyAtom I B).g.lev n = none := fun _ => rfl
  obtain ⟨h1, h2⟩ := build_spec l (emptyAtom I B) (fun n i h => by rw [hl] at h; cases h) hd (fun _ _ => rfl)
  refine ⟨(Reachable.empty I B).runAll h1, fun n e => ?_⟩
  rw [show built I B l = runAll (buildOps (emptyAtom I B).nlv l) (emptyAtom I B) from rfl, h2]
  constructor
  · rintro (h | ⟨i, hi, -⟩)
    · exact h
    · rw [hl] at hi; cases hi
  · exact .inl

/-- C149: adding the same levels in another order gives an atom with the same levels, the same energy at every rank, and, if no two energies
are equal, the same level at every rank. -/
theorem C149_order (I B : ℚ) {l l' : List LevelSpec} (hp : l.Perm l') (hd : (l.map fun s => s.term.name).Nodup) :
    (∀ n e, HasLevel (built I B l) n e ↔ HasLevel (built I B l') n e) ∧
    (∀ n : Int, (levelsGetInt n (built I B l)).map (built I B l).eHz = (levelsGetInt n (built I B l')).map (built I B l').eHz) ∧
    ((l.map fun s => s.E).Nodup →
      ∀ n : Int, (levelsGetInt n (built I B l)).map (built I B l).lname = (levelsGetInt n (built I B l')).map (built I B l').lname) := by
  obtain ⟨r1, s1⟩ := built_spec I B hd
  obtain ⟨r2, s2⟩ := built_spec I B (l := l') ((hp.map _).nodup_iff.1 hd)
  have h : ∀ n e, HasLevel (built I B l) n e ↔ HasLevel (built I B l') n e := by
    intro n e
    rw [s1, s2]
    constructor
    · rintro ⟨s, hs, h⟩; exact ⟨s, hp.mem_iff.1 hs, h⟩
    · rintro ⟨s, hs, h⟩; exact ⟨s, hp.mem_iff.2 hs, h⟩
  refine ⟨h, (C149_rank r1 r2 h).1, fun he => (C149_rank r1 r2 h).2 ?_⟩
  intro n n' e h1 h2
  obtain ⟨s, hs, rfl, rfl⟩ := (s1 _ _).1 h1
  obtain ⟨s', hs', rfl, e'⟩ := (s1 _ _).1 h2
  rw [List.inj_on_of_nodup_map he hs' hs e']

/-- Three levels given in two orders. -/
example : levelsGetInt 1 (built 0 0 [⟨demoTerm 'g', 0, 2, 0, 0, 0⟩, ⟨demoTerm 'a', 10, 2, 0, 0, 0⟩, ⟨demoTerm 'b', 5, 2, 0, 0, 0⟩]) = .ok 2 ∧
    levelsGetInt 1 (built 0 0 [⟨demoTerm 'b', 5, 2, 0, 0, 0⟩, ⟨demoTerm 'a', 10, 2, 0, 0, 0⟩, ⟨demoTerm 'g', 0, 2, 0, 0, 0⟩]) = .ok 0 := by
  decide +kernel

end AtomTk
