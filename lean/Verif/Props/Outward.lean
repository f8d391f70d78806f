import Verif.Props.Tuning

/-! # Every loop-free set of frequencies can be set in some order: C150 -/

namespace AtomTk
open Util World SimpleGraph

/-! ## Leaves -/

/-- A graph without loops, with at least one edge and with a bound on the length of its paths has a leaf. -/
theorem exists_leaf {V : Type} {G : SimpleGraph V} (h : G.IsAcyclic) {a b : V} (hab : G.Adj a b) (k : ℕ)
    (hk : ∀ u v (p : G.Walk u v), p.IsPath → p.length ≤ k) : ∃ v u, G.Adj v u ∧ ∀ x, G.Adj v x → x = u := by
  by_contra hno
  push Not at hno
  have grow : ∀ n, ∃ u v, ∃ p : G.Walk u v, p.IsPath ∧ p.length = n + 1 := by
    intro n
    induction n with
    | zero => exact ⟨a, b, .cons hab .nil, by simp [hab.ne], rfl⟩
    | succ n ih =>
      obtain ⟨u, v, p, hp, hl⟩ := ih
      have hnn : ¬p.Nil := fun hn => by
        have := Walk.length_eq_zero_iff.2 hn
        omega
      obtain ⟨x, hx, hne⟩ := hno v p.penultimate (p.adj_penultimate hnn).symm
      refine ⟨u, x, p.concat hx, hp.concat (fun hm => hne (h.eq_penultimate_of_adj_end hp hx hm)) hx, ?_⟩
      rw [Walk.length_concat, hl]
  obtain ⟨u, v, p, hp, hl⟩ := grow k
  have := hk u v p hp
  omega

/-! ## The transitions set by a list -/

/-- The atom with the frequencies of a list noted, nothing else changed. -/
def noted (l : List (Nat × ℚ)) (w : World) : World := l.foldl (fun v p => withFreq v p.1 p.2) w

theorem noted_g (l : List (Nat × ℚ)) (w : World) : (noted l w).g = w.g := by
  induction l generalizing w with
  | nil => rfl
  | cons p l ih => exact (ih _).trans rfl

theorem noted_lv (l : List (Nat × ℚ)) (w : World) : (noted l w).lv = w.lv := by
  induction l generalizing w with
  | nil => rfl
  | cons p l ih => exact (ih _).trans rfl

theorem noted_lname (l : List (Nat × ℚ)) (w : World) (i : Nat) : (noted l w).lname i = w.lname i := by
  unfold World.lname
  rw [noted_lv]

theorem withFreq_tr (w : World) (t : Nat) (f : ℚ) (t' : Nat) : ((withFreq w t f).tr t').lower = (w.tr t').lower ∧
    ((withFreq w t f).tr t').upper = (w.tr t').upper ∧ ((withFreq w t f).tr t').e1 = (w.tr t').e1 ∧
    ((withFreq w t f).tr t').e2 = (w.tr t').e2 ∧ ((withFreq w t f).tr t').setFreq = if t' = t then some f else (w.tr t').setFreq := by
  by_cases h : t' = t
  · subst h
    simp [withFreq, World.setTr, upd]
  · simp [withFreq, World.setTr, upd, h]

theorem noted_tr (l : List (Nat × ℚ)) (w : World) (t : Nat) : ((noted l w).tr t).lower = (w.tr t).lower ∧
    ((noted l w).tr t).upper = (w.tr t).upper ∧ ((noted l w).tr t).e1 = (w.tr t).e1 ∧ ((noted l w).tr t).e2 = (w.tr t).e2 := by
  induction l generalizing w with
  | nil => exact ⟨rfl, rfl, rfl, rfl⟩
  | cons p l ih =>
    obtain ⟨a, b, c, d⟩ := ih (withFreq w p.1 p.2)
    obtain ⟨a', b', c', d', -⟩ := withFreq_tr w p.1 p.2 t
    exact ⟨a.trans a', b.trans b', c.trans c', d.trans d'⟩

theorem noted_inAtom (l : List (Nat × ℚ)) (w : World) (t : Nat) : InAtom (noted l w) t ↔ InAtom w t := by
  unfold InAtom
  obtain ⟨-, -, c, d⟩ := noted_tr l w t
  rw [noted_g, noted_lname, noted_lname, c, d]

theorem noted_set (l : List (Nat × ℚ)) (w : World) (t : Nat) (f : ℚ) (h : ((noted l w).tr t).setFreq = some f) :
    t ∈ l.map Prod.fst ∨ (w.tr t).setFreq = some f := by
  induction l generalizing w with
  | nil => exact .inr h
  | cons p l ih =>
    rcases ih (withFreq w p.1 p.2) h with h | h
    · exact .inl (List.mem_cons_of_mem _ h)
    · rw [(withFreq_tr w p.1 p.2 t).2.2.2.2] at h
      by_cases e : t = p.1
      · exact .inl (by simp [e])
      · rw [if_neg e] at h
        exact .inr h

theorem noted_mem (l : List (Nat × ℚ)) (w : World) (t : Nat) (h : t ∈ l.map Prod.fst ∨ ∃ f, (w.tr t).setFreq = some f) :
    ∃ f, ((noted l w).tr t).setFreq = some f := by
  induction l generalizing w with
  | nil => exact h.resolve_left (by simp)
  | cons p l ih =>
    refine ih (withFreq w p.1 p.2) ?_
    rw [(withFreq_tr w p.1 p.2 t).2.2.2.2]
    by_cases e : t = p.1
    · exact .inr ⟨p.2, if_pos e⟩
    · rw [if_neg e]
      rcases h with h | h
      · simp only [List.map_cons, List.mem_cons, e, false_or] at h
        exact .inl h
      · exact .inr h

theorem noted_none (l : List (Nat × ℚ)) (w : World) (t : Nat) (h : t ∉ l.map Prod.fst) (h0 : (w.tr t).setFreq = none) :
    ((noted l w).tr t).setFreq = none := by
  cases hs : ((noted l w).tr t).setFreq with
  | none => rfl
  | some f =>
    rcases noted_set l w t f hs with h' | h'
    · exact absurd h' h
    · rw [h0] at h'
      cases h'

theorem grows_append (l : List (Nat × ℚ)) (t : Nat) (f : ℚ) (w : World) : Grows (l ++ [(t, f)]) w ↔ Grows l w ∧ InAtom (noted l w) t ∧
    ((noted l w).tr t).setFreq = none ∧ ((noted l w).tr t).lower ≠ ((noted l w).tr t).upper ∧ 0 ≤ f ∧
    (Loose (noted l w) ((noted l w).tr t).lower ∨ Loose (noted l w) ((noted l w).tr t).upper) := by
  induction l generalizing w with
  | nil => simp [Grows, noted]
  | cons p l ih =>
    obtain ⟨t', f'⟩ := p
    rw [List.cons_append]
    simp only [Grows]
    rw [ih]
    show _ ↔ _ ∧ InAtom (noted l (withFreq w t' f')) t ∧ ((noted l (withFreq w t' f')).tr t).setFreq = none ∧ _
    tauto

/-! ## The order -/

/-- No transition of the atom has a set frequency. -/
def Unset (w : World) : Prop := ∀ n m t f, ¬SetEdge w n m t f

theorem noted_edge {l : List (Nat × ℚ)} {w : World} (h : Unset w) (n m : Str) (t : Nat) :
    (∃ f, SetEdge (noted l w) n m t f) ↔ w.g.adj n m = some t ∧ t ∈ l.map Prod.fst := by
  constructor
  · rintro ⟨f, h1, h2⟩
    rw [noted_g] at h1
    refine ⟨h1, (noted_set l w t f h2).resolve_right fun h3 => h n m t f ⟨h1, h3⟩⟩
  · rintro ⟨h1, h2⟩
    obtain ⟨f, hf⟩ := noted_mem l w t (.inl h2)
    exact ⟨f, by rw [noted_g]; exact h1, hf⟩

/-- One of the transitions has a level that none of the others has. -/
theorem last_one {w : World} (hw : WF w) (hu : Unset w) {l : List (Nat × ℚ)} (hin : ∀ p ∈ l, InAtom w p.1)
    (hf : TuneForest l w) (hne : l ≠ []) : ∃ p ∈ l, ∃ i, (i = (w.tr p.1).lower ∨ i = (w.tr p.1).upper) ∧
      ∀ m t, t ∈ (l.map Prod.fst) → w.g.adj (w.lname i) m = some t → t = p.1 := by
  obtain ⟨hac, hself⟩ := hf
  set G := SimpleGraph.fromRel (fun a b => True ∧ True ∧ ∃ t f, SetEdge (noted l w) a b t f) with hG
  have hac : G.IsAcyclic := hac
  have adjG : ∀ a b, G.Adj a b ↔ ∃ t, w.g.adj a b = some t ∧ t ∈ l.map Prod.fst := by
    intro a b
    rw [hG, SimpleGraph.fromRel_adj]
    constructor
    · rintro ⟨-, ⟨-, -, t, f, h⟩ | ⟨-, -, t, f, h⟩⟩
      · exact ⟨t, (noted_edge hu a b t).1 ⟨f, h⟩⟩
      · obtain ⟨h1, h2⟩ := (noted_edge hu b a t).1 ⟨f, h⟩
        exact ⟨t, by rw [hw.gok.symm]; exact h1, h2⟩
    · rintro ⟨t, h⟩
      obtain ⟨f, hf⟩ := (noted_edge hu a b t).2 h
      refine ⟨?_, .inl ⟨trivial, trivial, t, f, hf⟩⟩
      rintro rfl
      exact hself a t f trivial hf
  obtain ⟨p0, hp0⟩ := List.exists_mem_of_ne_nil l hne
  have e0 : G.Adj (w.lname (w.tr p0.1).e1) (w.lname (w.tr p0.1).e2) := (adjG _ _).2 ⟨p0.1, hin p0 hp0, List.mem_map_of_mem hp0⟩
  have bound : ∀ u v (p : G.Walk u v), p.IsPath → p.length ≤ (l.map fun p => s(w.lname (w.tr p.1).lower, w.lname (w.tr p.1).upper)).length := by
    intro u v p hp
    rw [← p.length_edges]
    refine (hp.isTrail.edges_nodup.subperm ?_).length_le
    intro e he
    have hadj := p.edges_subset_edgeSet he
    revert hadj
    refine Sym2.ind (fun a b => ?_) e
    intro hadj
    rw [SimpleGraph.mem_edgeSet, adjG] at hadj
    obtain ⟨t, h1, h2⟩ := hadj
    obtain ⟨q, hq, rfl⟩ := List.mem_map.1 h2
    refine List.mem_map.2 ⟨q, hq, ?_⟩
    rcases (hw.edge _ _ _ h1).2.2.2.2.1 with ⟨rfl, rfl⟩ | ⟨rfl, rfl⟩
    · rfl
    · exact Sym2.eq_swap
  obtain ⟨v, u, hvu, huniq⟩ := exists_leaf hac e0 _ bound
  obtain ⟨t, h1, h2⟩ := (adjG _ _).1 hvu
  obtain ⟨p, hp, rfl⟩ := List.mem_map.1 h2
  have hv : ∃ i, (i = (w.tr p.1).lower ∨ i = (w.tr p.1).upper) ∧ v = w.lname i := by
    rcases (hw.edge _ _ _ h1).2.2.2.2.1 with ⟨a, -⟩ | ⟨a, -⟩
    · exact ⟨_, .inl rfl, a⟩
    · exact ⟨_, .inr rfl, a⟩
  obtain ⟨i, hi, rfl⟩ := hv
  refine ⟨p, hp, i, hi, fun m t ht ha => ?_⟩
  have := huniq m ((adjG _ _).2 ⟨t, ha, ht⟩)
  subst this
  rw [h1] at ha
  cases ha
  rfl

theorem TuneForest.mono {w : World} (hu : Unset w) {l l' : List (Nat × ℚ)} (hs : ∀ t ∈ l'.map Prod.fst, t ∈ l.map Prod.fst)
    (h : TuneForest l w) : TuneForest l' w := by
  have sub : ∀ n m t f, SetEdge (noted l' w) n m t f → ∃ f, SetEdge (noted l w) n m t f := by
    intro n m t f he
    obtain ⟨h1, h2⟩ := (noted_edge hu n m t).1 ⟨f, he⟩
    exact (noted_edge hu n m t).2 ⟨h1, hs t h2⟩
  obtain ⟨h1, h2⟩ := h
  refine ⟨h1.anti ?_, fun n t f _ he => ?_⟩
  · intro a b
    rw [SimpleGraph.fromRel_adj, SimpleGraph.fromRel_adj]
    rintro ⟨h, ⟨-, -, t, f, he⟩ | ⟨-, -, t, f, he⟩⟩
    · obtain ⟨f', he'⟩ := sub a b t f he
      exact ⟨h, .inl ⟨trivial, trivial, t, f', he'⟩⟩
    · obtain ⟨f', he'⟩ := sub b a t f he
      exact ⟨h, .inr ⟨trivial, trivial, t, f', he'⟩⟩
  · obtain ⟨f', he'⟩ := sub n n t f he
    exact h2 n t f' trivial he'

/-- A loop-free set of transitions of an atom without set frequencies can be ordered so that each has a level that no earlier one has. -/
theorem outward_order {w : World} (hw : WF w) (hu : Unset w) (l : List (Nat × ℚ)) (hd : (l.map Prod.fst).Nodup)
    (hl : ∀ p ∈ l, InAtom w p.1 ∧ (w.tr p.1).setFreq = none ∧ 0 ≤ p.2) (hf : TuneForest l w) : ∃ l', l'.Perm l ∧ Grows l' w := by
  induction hn : l.length generalizing l with
  | zero =>
    rw [List.length_eq_zero_iff] at hn
    subst hn
    exact ⟨[], .refl _, trivial⟩
  | succ k ih =>
    have hne : l ≠ [] := by
      rintro rfl
      cases hn
    obtain ⟨p, hp, i, hi, hlast⟩ := last_one hw hu (fun p hp => (hl p hp).1) hf hne
    have hperm : (p :: l.erase p).Perm l := (List.perm_cons_erase hp).symm
    have hd' : ((p :: l.erase p).map Prod.fst).Nodup := (hperm.map _).nodup_iff.2 hd
    rw [List.map_cons, List.nodup_cons] at hd'
    obtain ⟨l', h1, h2⟩ := ih (l.erase p) hd'.2 (fun q hq => hl q (List.mem_of_mem_erase hq))
      (hf.mono hu fun t ht => by
        obtain ⟨q, hq, rfl⟩ := List.mem_map.1 ht
        exact List.mem_map_of_mem (List.mem_of_mem_erase hq))
      (by rw [List.length_erase_of_mem hp, hn]; rfl)
    have hmem : ∀ t, t ∈ l'.map Prod.fst ↔ t ∈ (l.erase p).map Prod.fst := fun t => (h1.map Prod.fst).mem_iff
    refine ⟨l' ++ [p], ?_, ?_⟩
    · exact (List.perm_append_singleton p l').trans ((h1.cons p).trans hperm)
    · obtain ⟨a, b, c⟩ := hl p hp
      obtain ⟨k1, k2, -, -⟩ := noted_tr l' w p.1
      have hlu : (w.tr p.1).lower ≠ (w.tr p.1).upper := by
        intro he
        obtain ⟨_, _, k3, k4, k5, k6⟩ := hw.edge _ _ _ a
        have hee : w.lname (w.tr p.1).e1 = w.lname (w.tr p.1).e2 := by
          rcases k6 with ⟨e1, e2⟩ | ⟨e1, e2⟩ <;> rw [e1, e2, he]
        obtain ⟨f, hs⟩ := (noted_edge hu _ _ p.1).2 ⟨a, List.mem_map_of_mem hp⟩
        rw [← hee] at hs
        exact hf.2 _ _ _ trivial hs
      have hloose : Loose (noted l' w) i := by
        intro m t f he
        rw [noted_lname] at he
        obtain ⟨q1, q2⟩ := (noted_edge hu _ _ t).1 ⟨f, he⟩
        rw [hmem] at q2
        have : t = p.1 := hlast m t (by
          obtain ⟨q, hq, rfl⟩ := List.mem_map.1 q2
          exact List.mem_map_of_mem (List.mem_of_mem_erase hq)) q1
        subst this
        exact hd'.1 q2
      obtain ⟨t, f⟩ := p
      refine (grows_append l' t f w).2 ⟨h2, (noted_inAtom l' w t).2 a, noted_none l' w t (fun h => hd'.1 ((hmem t).1 h)) b, ?_, c, ?_⟩
      · rw [k1, k2]
        exact hlu
      · rw [k1, k2]
        rcases hi with rfl | rfl
        · exact .inl hloose
        · exact .inr hloose

/-- C150: in an atom without set frequencies every loop-free set of transitions can be given any non-negative frequencies: there is an order
of the calls in which all of them are met at the end. -/
theorem C150_some_order {w : World} (hr : Reachable w) (hu : Unset w) (hs : InTune w) (l : List (Nat × ℚ)) (hd : (l.map Prod.fst).Nodup)
    (hl : ∀ p ∈ l, InAtom w p.1 ∧ (w.tr p.1).setFreq = none ∧ 0 ≤ p.2) (hf : TuneForest l w) :
    ∃ l', l'.Perm l ∧ ∀ σs : List Ord', σs.length = l.length → (∀ σ ∈ σs, Shuffles σ) →
      ∃ w', tune l' σs w = (w', .ok ()) ∧ w'.warned = w.warned ∧ ∀ t f, (t, f) ∈ l → w'.freqHz t = f := by
  obtain ⟨l', h1, h2⟩ := outward_order hr.wf hu l hd hl hf
  refine ⟨l', h1, fun σs hn hσ => ?_⟩
  obtain ⟨w', a, b, -, c, -⟩ := C150_outward_partial hr hs h2 (hn.trans h1.length_eq.symm) hσ
  exact ⟨w', a, c, fun t f h => b t f (h1.mem_iff.2 h)⟩

/-- The three frequencies that cannot be set in the order given in `C150_fails` can be in another. -/
example : ∃ l' : List (Nat × ℚ), l'.Perm [(0, 1), (2, 1), (1, 5)] ∧ ∃ w', tune l' [idOrd, idOrd, idOrd] ladder = (w', .ok ()) ∧
    w'.freqHz 0 = 1 ∧ w'.freqHz 2 = 1 ∧ w'.freqHz 1 = 5 := by
  have hd : setEdgeList ladder = [] := by decide +kernel
  have hu : Unset ladder := fun n m t f h => forall_setEdge (w := ladder) (P := fun _ _ _ _ => False) (by rw [hd]; simp) h
  obtain ⟨l', h1, h2⟩ := C150_some_order ladder_reachable hu ladder_settled [(0, 1), (2, 1), (1, 5)] (by decide) (by decide +kernel)
    (loopFree_of_parent (fun n => if n = demoName 'c' then demoName 'b' else if n = demoName 'b' then demoName 'a' else demoName 'g')
      (fun n => if n = demoName 'c' then 3 else if n = demoName 'b' then 2 else if n = demoName 'a' then 1 else 0) (by decide +kernel) _)
  obtain ⟨w', a, -, b⟩ := h2 [idOrd, idOrd, idOrd] rfl (fun σ hσ => by simp at hσ; rw [hσ]; exact idOrd_shuffles)
  exact ⟨l', h1, w', a, b 0 1 (by simp), b 2 1 (by simp), b 1 5 (by simp)⟩

end AtomTk
