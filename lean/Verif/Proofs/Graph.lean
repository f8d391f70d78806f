import Verif.Model.Graph
import Verif.Proofs.Level
import Mathlib.Logic.Relation

/-! # Lemmas on dictionaries, graphs and depth first search -/

namespace AtomTk

namespace Dict
variable {κ α β : Type _} [DecidableEq κ]

theorem get?_append (d e : Dict κ α) (k : κ) :
    Dict.get? (d ++ e) k = (match Dict.get? d k with | some v => some v | none => Dict.get? e k) := by
  induction d with
  | nil => rfl
  | cons p t ih =>
    obtain ⟨a, b⟩ := p
    simp only [List.cons_append, Dict.get?]
    by_cases h : a = k
    · simp [h]
    · simp only [h, if_false]; exact ih

theorem get?_none (d : Dict κ α) (k : κ) : d.get? k = none ↔ k ∉ d.keys := by
  induction d with
  | nil => simp [Dict.get?, Dict.keys]
  | cons p t ih =>
    obtain ⟨a, b⟩ := p
    simp only [Dict.get?, Dict.keys, List.map_cons, List.mem_cons, not_or] at *
    by_cases h : a = k
    · simp [h]
    · simp [h, ih, Ne.symm h]

theorem get?_isSome (d : Dict κ α) (k : κ) : (∃ v, d.get? k = some v) ↔ k ∈ d.keys := by
  have := get?_none d k
  cases h : d.get? k with
  | none => simp [h] at this; simp [this]
  | some v => rw [h] at this; simp at this; simp [this]

theorem mem_of_get? {d : Dict κ α} {k : κ} {v : α} (h : d.get? k = some v) : (k, v) ∈ d := by
  induction d with
  | nil => simp [Dict.get?] at h
  | cons p t ih =>
    obtain ⟨a, b⟩ := p
    simp only [Dict.get?] at h
    split at h
    · rename_i e; simp at h; subst e; subst h; simp
    · exact List.mem_cons_of_mem _ (ih h)

theorem get?_of_mem {d : Dict κ α} {k : κ} {v : α} (hn : d.keys.Nodup) (h : (k, v) ∈ d) : d.get? k = some v := by
  induction d with
  | nil => simp at h
  | cons p t ih =>
    obtain ⟨a, b⟩ := p
    simp only [Dict.keys, List.map_cons, List.nodup_cons] at hn
    simp only [Dict.get?]
    rcases List.mem_cons.1 h with h | h
    · simp at h; simp [h.1, h.2]
    · have : a ≠ k := by
        rintro rfl
        exact hn.1 (List.mem_map.2 ⟨_, h, rfl⟩)
      simp [this, ih hn.2 h]

theorem mem_iff {d : Dict κ α} (hn : d.keys.Nodup) (k : κ) (v : α) : (k, v) ∈ d ↔ d.get? k = some v :=
  ⟨get?_of_mem hn, mem_of_get?⟩

theorem keys_set (d : Dict κ α) (k : κ) (v : α) : (d.set k v).keys = if k ∈ d.keys then d.keys else d.keys ++ [k] := by
  induction d with
  | nil => simp [Dict.set, Dict.keys]
  | cons p t ih =>
    obtain ⟨a, b⟩ := p
    simp only [Dict.set]
    by_cases h : a = k
    · simp [h, Dict.keys]
    · simp only [h, if_false]
      simp only [Dict.keys, List.map_cons] at *
      rw [ih]
      by_cases h2 : k ∈ List.map Prod.fst t
      · simp [h2]
      · simp [h2, Ne.symm h]

theorem nodup_set {d : Dict κ α} (h : d.keys.Nodup) (k : κ) (v : α) : (d.set k v).keys.Nodup := by
  rw [keys_set]
  split
  · exact h
  · rename_i hk
    rw [List.nodup_append]
    exact ⟨h, by simp, by intro a ha b hb; simp at hb; rintro rfl; exact hk (hb ▸ ha)⟩

theorem get?_del (d : Dict κ α) (k k' : κ) : (d.del k).get? k' = if k' = k then none else d.get? k' := by
  induction d with
  | nil => simp [Dict.del, Dict.get?]
  | cons p t ih =>
    obtain ⟨a, b⟩ := p
    simp only [Dict.del] at *
    by_cases h : a = k
    · subst h
      simp only [List.filter_cons, Dict.get?]
      simp only [ne_eq, not_true_eq_false, decide_false, Bool.false_eq_true, if_false]
      rw [ih]
      by_cases h2 : k' = a
      · simp [h2]
      · simp [h2, Ne.symm h2]
    · simp only [List.filter_cons]
      simp only [ne_eq, h, not_false_eq_true, decide_true, if_true, Dict.get?]
      by_cases h2 : a = k'
      · subst h2; simp [h]
      · simp only [h2, if_false]; exact ih

theorem keys_del (d : Dict κ α) (k : κ) : (d.del k).keys = d.keys.filter (fun x => x ≠ k) := by
  induction d with
  | nil => rfl
  | cons p t ih =>
    obtain ⟨a, b⟩ := p
    simp only [Dict.del, Dict.keys, List.map_cons, List.filter_cons] at *
    by_cases h : a = k <;> simp [h] <;> simpa using ih

theorem nodup_del {d : Dict κ α} (h : d.keys.Nodup) (k : κ) : (d.del k).keys.Nodup := by
  rw [keys_del]; exact h.filter _

theorem get?_map (f : κ → α → β) (d : Dict κ α) (k : κ) :
    Dict.get? (d.map (fun p => (p.1, f p.1 p.2))) k = (d.get? k).map (f k) := by
  induction d with
  | nil => rfl
  | cons p t ih =>
    obtain ⟨a, b⟩ := p
    simp only [List.map_cons, Dict.get?]
    by_cases h : a = k
    · subst h; simp
    · simp only [h, if_false]; exact ih

omit [DecidableEq κ] in
theorem keys_map (f : κ → α → β) (d : Dict κ α) : Dict.keys (d.map (fun p => (p.1, f p.1 p.2))) = d.keys := by
  simp [Dict.keys, Function.comp_def]

theorem get?_filter (p : κ → Bool) (d : Dict κ α) (k : κ) :
    Dict.get? (d.filter (fun x => p x.1)) k = if p k then d.get? k else none := by
  induction d with
  | nil => simp [Dict.get?]
  | cons q t ih =>
    obtain ⟨a, b⟩ := q
    simp only [List.filter_cons]
    by_cases h : a = k
    · subst h
      by_cases hp : p a = true
      · simp [hp, Dict.get?]
      · simp only [hp] at ih ⊢; simpa using ih
    · by_cases hp : p a = true
      · simp only [hp, if_true, Dict.get?, h, if_false]; exact ih
      · simp only [hp, Dict.get?, h, if_false]; simpa using ih

theorem has_iff (d : Dict κ α) (k : κ) : d.has k = true ↔ k ∈ d.keys := by
  rw [← get?_isSome, Dict.has, Option.isSome_iff_exists]

theorem getE_ok {d : Dict κ α} {k : κ} {v : α} : d.getE k = .ok v ↔ d.get? k = some v := by
  unfold Dict.getE
  cases d.get? k <;> simp

theorem getE_err {d : Dict κ α} {k : κ} (h : d.get? k = none) : d.getE k = .error .KeyError := by
  simp [Dict.getE, h]

end Dict

/-! ## Graph operations -/

namespace Graph

/-- Well-formed graphs: what every sequence of networkx calls maintains. -/
structure Ok (g : Graph) : Prop where
  nodup : g.keys.Nodup
  nbrs : ∀ n r, g.get? n = some r → r.nbrs.keys.Nodup
  symm : ∀ u v, g.adj u v = g.adj v u

theorem adj_addNode (g : Graph) (n : Str) (l : Nat) (u v : Str) : (g.addNode n l).adj u v = g.adj u v := by
  unfold addNode adj
  cases h : g.get? n with
  | none =>
    simp only [Dict.get?_set]
    by_cases hu : n = u
    · subst hu; simp [h, Dict.get?]
    · simp [hu]
  | some r =>
    simp only [Dict.get?_set]
    by_cases hu : n = u
    · subst hu; simp [h]
    · simp [hu]

theorem lev_addNode (g : Graph) (n : Str) (l : Nat) (u : Str) :
    (g.addNode n l).lev u = if n = u then some l else g.lev u := by
  unfold addNode lev
  cases h : g.get? n with
  | none =>
    simp only [Dict.get?_set]
    by_cases hu : n = u <;> simp [hu]
  | some r =>
    simp only [Dict.get?_set]
    by_cases hu : n = u <;> simp [hu]

theorem keys_addNode (g : Graph) (n : Str) (l : Nat) :
    (g.addNode n l).keys = if n ∈ g.keys then g.keys else g.keys ++ [n] := by
  unfold addNode
  cases h : g.get? n with
  | none => simp only [Dict.keys_set]; congr
  | some r => simp only [Dict.keys_set]; congr

theorem Ok.addNode {g : Graph} (h : g.Ok) (n : Str) (l : Nat) : (g.addNode n l).Ok := by
  refine ⟨?_, ?_, ?_⟩
  · unfold Graph.addNode; split <;> exact Dict.nodup_set h.nodup _ _
  · intro m r hr
    unfold Graph.addNode at hr
    split at hr
    · rename_i r0 h0
      rw [Dict.get?_set] at hr
      split at hr
      · simp at hr; subst hr; exact h.nbrs n r0 h0
      · exact h.nbrs m r hr
    · rw [Dict.get?_set] at hr
      split at hr
      · simp at hr; subst hr; simp [Dict.keys]
      · exact h.nbrs m r hr
  · intro u v; rw [adj_addNode, adj_addNode]; exact h.symm u v

theorem adj_touch (g : Graph) (n u v : Str) : (g.touch n).adj u v = g.adj u v := by
  unfold touch
  cases h : g.get? n with
  | some r => rfl
  | none =>
    simp only [adj, Dict.get?_set]
    by_cases hu : n = u
    · subst hu; simp [h, Dict.get?]
    · simp [hu]

theorem lev_touch (g : Graph) (n u : Str) : (g.touch n).lev u = g.lev u := by
  unfold touch
  cases h : g.get? n with
  | some r => rfl
  | none =>
    simp only [lev, Dict.get?_set]
    by_cases hu : n = u
    · subst hu; simp [h]
    · simp [hu]

theorem keys_touch (g : Graph) (n : Str) : (g.touch n).keys = if n ∈ g.keys then g.keys else g.keys ++ [n] := by
  unfold touch
  cases h : g.get? n with
  | none => simp only [Dict.keys_set]; congr
  | some r =>
    have : n ∈ g.keys := (Dict.get?_isSome g n).1 ⟨r, h⟩
    simp [this]

theorem mem_touch (g : Graph) (n : Str) : n ∈ (g.touch n).keys := by
  rw [keys_touch]; split <;> simp_all

theorem mem_touch_of (g : Graph) (n m : Str) (h : m ∈ g.keys) : m ∈ (g.touch n).keys := by
  rw [keys_touch]; split <;> simp_all

theorem adj_setNbr (g : Graph) (a b : Str) (t : Nat) (u v : Str) (ha : a ∈ g.keys) :
    (g.setNbr a b t).adj u v = if a = u ∧ b = v then some t else g.adj u v := by
  obtain ⟨r, hr⟩ := (Dict.get?_isSome g a).2 ha
  unfold setNbr adj
  simp only [hr, Dict.get?_set]
  by_cases hu : a = u
  · subst hu
    simp only [if_true, hr, true_and, Dict.get?_set]
  · simp [hu]

theorem lev_setNbr (g : Graph) (a b : Str) (t : Nat) (u : Str) : (g.setNbr a b t).lev u = g.lev u := by
  unfold setNbr
  cases h : g.get? a with
  | none => rfl
  | some r =>
    simp only [lev, Dict.get?_set]
    by_cases hu : a = u
    · subst hu; simp [h]
    · simp [hu]

theorem keys_setNbr (g : Graph) (a b : Str) (t : Nat) : (g.setNbr a b t).keys = g.keys := by
  unfold setNbr
  cases h : g.get? a with
  | none => rfl
  | some r =>
    have : a ∈ g.keys := (Dict.get?_isSome g a).1 ⟨r, h⟩
    simp only [Dict.keys_set, this, if_true]

theorem adj_addEdge (g : Graph) (a b : Str) (t : Nat) (u v : Str) :
    (g.addEdge a b t).adj u v = if (a = u ∧ b = v) ∨ (a = v ∧ b = u) then some t else g.adj u v := by
  unfold addEdge
  rw [adj_setNbr _ _ _ _ _ _ (by rw [keys_setNbr]; exact mem_touch _ _),
    adj_setNbr _ _ _ _ _ _ (mem_touch_of _ _ _ (mem_touch _ _)), adj_touch, adj_touch]
  by_cases h1 : b = u ∧ a = v
  · simp [h1]
  · rw [if_neg h1]
    have : ¬ (a = v ∧ b = u) := fun h => h1 ⟨h.2, h.1⟩
    simp [this]

theorem lev_addEdge (g : Graph) (a b : Str) (t : Nat) (u : Str) : (g.addEdge a b t).lev u = g.lev u := by
  unfold addEdge; rw [lev_setNbr, lev_setNbr, lev_touch, lev_touch]

theorem keys_addEdge (g : Graph) (a b : Str) (t : Nat) : (g.addEdge a b t).keys = ((g.touch a).touch b).keys := by
  unfold addEdge; rw [keys_setNbr, keys_setNbr]

theorem keys_addEdge_of_mem (g : Graph) (a b : Str) (t : Nat) (ha : a ∈ g.keys) (hb : b ∈ g.keys) :
    (g.addEdge a b t).keys = g.keys := by
  rw [keys_addEdge, keys_touch, keys_touch, if_pos ha, if_pos hb]

theorem nbrs_setNbr {g : Graph} (h : ∀ n r, g.get? n = some r → r.nbrs.keys.Nodup) (a b : Str) (t : Nat) :
    ∀ n r, (g.setNbr a b t).get? n = some r → r.nbrs.keys.Nodup := by
  intro n r hr
  unfold setNbr at hr
  split at hr
  · rename_i r0 h0
    rw [Dict.get?_set] at hr
    split at hr
    · simp at hr; subst hr; exact Dict.nodup_set (h a r0 h0) _ _
    · exact h n r hr
  · exact h n r hr

theorem nbrs_touch {g : Graph} (h : ∀ n r, g.get? n = some r → r.nbrs.keys.Nodup) (a : Str) :
    ∀ n r, (g.touch a).get? n = some r → r.nbrs.keys.Nodup := by
  intro n r hr
  unfold touch at hr
  split at hr
  · exact h n r hr
  · rw [Dict.get?_set] at hr
    split at hr
    · simp at hr; subst hr; simp [Dict.keys]
    · exact h n r hr

theorem nodup_touch {g : Graph} (h : g.keys.Nodup) (a : Str) : (g.touch a).keys.Nodup := by
  unfold touch; split
  · exact h
  · exact Dict.nodup_set h _ _

theorem Ok.addEdge {g : Graph} (h : g.Ok) (a b : Str) (t : Nat) : (g.addEdge a b t).Ok := by
  refine ⟨?_, ?_, ?_⟩
  · rw [keys_addEdge]; exact nodup_touch (nodup_touch h.nodup a) b
  · exact nbrs_setNbr (nbrs_setNbr (nbrs_touch (nbrs_touch h.nbrs a) b) _ _ _) _ _ _
  · intro u v
    rw [adj_addEdge, adj_addEdge, h.symm u v]
    have e : ((a = u ∧ b = v) ∨ (a = v ∧ b = u)) ↔ ((a = v ∧ b = u) ∨ (a = u ∧ b = v)) := Or.comm
    by_cases hc : (a = u ∧ b = v) ∨ (a = v ∧ b = u)
    · rw [if_pos hc, if_pos (e.1 hc)]
    · rw [if_neg hc, if_neg (fun h => hc (e.2 h))]

theorem removeNode_ok {g g' : Graph} {n : Str} (h : g.removeNode n = .ok g') :
    n ∈ g.keys ∧ g' = (g.del n).map (fun p => (p.1, ⟨p.2.level, p.2.nbrs.del n⟩)) := by
  unfold removeNode at h
  split at h
  · rename_i hh; simp at h; exact ⟨(Dict.has_iff g n).1 hh, h.symm⟩
  · simp at h

theorem removeNode_err {g : Graph} {n : Str} (h : n ∉ g.keys) : g.removeNode n = .error .NetworkXError := by
  unfold removeNode
  rw [if_neg]
  intro hh
  exact h ((Dict.has_iff g n).1 hh)

theorem get?_removeNode {g g' : Graph} {n : Str} (h : g.removeNode n = .ok g') (u : Str) :
    g'.get? u = if u = n then none else (g.get? u).map (fun r => ⟨r.level, r.nbrs.del n⟩) := by
  obtain ⟨_, rfl⟩ := removeNode_ok h
  rw [Dict.get?_map (fun _ (r : NodeRec) => (⟨r.level, r.nbrs.del n⟩ : NodeRec)), Dict.get?_del]
  split <;> simp

theorem adj_removeNode {g g' : Graph} {n : Str} (h : g.removeNode n = .ok g') (u v : Str) :
    g'.adj u v = if u = n ∨ v = n then none else g.adj u v := by
  unfold adj
  rw [get?_removeNode h]
  by_cases hu : u = n
  · simp [hu]
  · simp only [hu, if_false, false_or]
    cases g.get? u with
    | none => simp
    | some r => simp only [Option.map_some, Dict.get?_del]

theorem lev_removeNode {g g' : Graph} {n : Str} (h : g.removeNode n = .ok g') (u : Str) :
    g'.lev u = if u = n then none else g.lev u := by
  unfold lev
  rw [get?_removeNode h]
  by_cases hu : u = n
  · simp [hu]
  · simp only [hu, if_false]
    cases g.get? u <;> simp

theorem keys_removeNode {g g' : Graph} {n : Str} (h : g.removeNode n = .ok g') :
    g'.keys = g.keys.filter (fun x => x ≠ n) := by
  obtain ⟨_, rfl⟩ := removeNode_ok h
  rw [Dict.keys_map (fun _ (r : NodeRec) => (⟨r.level, r.nbrs.del n⟩ : NodeRec)), Dict.keys_del]

theorem Ok.removeNode {g g' : Graph} {n : Str} (ho : g.Ok) (h : g.removeNode n = .ok g') : g'.Ok := by
  refine ⟨?_, ?_, ?_⟩
  · rw [keys_removeNode h]; exact ho.nodup.filter _
  · intro m r hr
    rw [get?_removeNode h] at hr
    split at hr
    · simp at hr
    · cases h2 : g.get? m with
      | none => simp [h2] at hr
      | some r0 =>
        rw [h2] at hr; simp at hr; subst hr
        exact Dict.nodup_del (ho.nbrs m r0 h2) n
  · intro u v
    rw [adj_removeNode h, adj_removeNode h, ho.symm u v]
    have e : (u = n ∨ v = n) ↔ (v = n ∨ u = n) := Or.comm
    by_cases hc : u = n ∨ v = n
    · rw [if_pos hc, if_pos (e.1 hc)]
    · rw [if_neg hc, if_neg (fun h => hc (e.2 h))]

theorem Ok.empty : Ok ([] : Graph) := ⟨by simp [Dict.keys], by intro n r h; simp [Dict.get?] at h, by intro u v; rfl⟩

theorem mem_of_adj {g : Graph} {u v : Str} {t : Nat} (h : g.adj u v = some t) : u ∈ g.keys := by
  unfold adj at h
  split at h
  · rename_i r hr; exact (Dict.get?_isSome g u).1 ⟨r, hr⟩
  · simp at h

theorem mem_of_lev {g : Graph} {u : Str} {t : Nat} (h : g.lev u = some t) : u ∈ g.keys := by
  unfold lev at h
  cases h2 : g.get? u with
  | none => simp [h2] at h
  | some r => exact (Dict.get?_isSome g u).1 ⟨r, h2⟩

/-! ## Attribute dictionaries -/

theorem keys_levelAttrs_sub (g : Graph) : ∀ n, n ∈ g.levelAttrs.keys → n ∈ g.keys := by
  intro n hn
  simp only [levelAttrs, Dict.keys, List.mem_map, List.mem_filterMap] at hn
  obtain ⟨⟨a, b⟩, ⟨⟨c, r⟩, hc, hr⟩, rfl⟩ := hn
  cases hl : r.level with
  | none => simp [hl] at hr
  | some l =>
    simp [hl] at hr
    exact List.mem_map.2 ⟨_, hc, hr.1⟩

theorem get?_levelAttrs (g : Graph) (hn : g.keys.Nodup) (n : Str) : g.levelAttrs.get? n = g.lev n := by
  induction g with
  | nil => rfl
  | cons p t ih =>
    obtain ⟨a, r⟩ := p
    simp only [Dict.keys, List.map_cons, List.nodup_cons] at hn
    have hrec := ih hn.2
    unfold levelAttrs lev at *
    simp only [List.filterMap_cons, Dict.get?]
    by_cases h : a = n
    · subst h
      have hnone : Dict.get? (List.filterMap (fun p => p.2.level.map (fun l => (p.1, l))) t) a = none := by
        rw [Dict.get?_none]
        intro hc
        exact hn.1 (keys_levelAttrs_sub t a hc)
      cases hl : r.level with
      | none => simp [hnone, hl]
      | some l => simp [Dict.get?, hl]
    · cases hl : r.level with
      | none => simpa [h] using hrec
      | some l => simpa [Dict.get?, h] using hrec

theorem nodup_levelAttrs (g : Graph) (hn : g.keys.Nodup) : g.levelAttrs.keys.Nodup := by
  induction g with
  | nil => simp [levelAttrs, Dict.keys]
  | cons p t ih =>
    obtain ⟨a, r⟩ := p
    simp only [Dict.keys, List.map_cons, List.nodup_cons] at hn
    have hrec := ih hn.2
    unfold levelAttrs at *
    simp only [List.filterMap_cons]
    cases hl : r.level with
    | none => simpa using hrec
    | some l =>
      simp only [Option.map_some, Dict.keys, List.map_cons, List.nodup_cons]
      exact ⟨fun hc => hn.1 (keys_levelAttrs_sub t a hc), hrec⟩

/-- The level attributes come in node order. -/
theorem keys_levelAttrs (g : Graph) (hn : g.keys.Nodup) :
    g.levelAttrs.keys = g.keys.filter (fun n => (g.lev n).isSome) := by
  induction g with
  | nil => rfl
  | cons p t ih =>
    obtain ⟨a, r⟩ := p
    simp only [Dict.keys, List.map_cons, List.nodup_cons] at hn
    have hrec := ih hn.2
    have hfil : (t.map Prod.fst).filter (fun n => (lev ((a, r) :: t) n).isSome) =
        (t.map Prod.fst).filter (fun n => (lev t n).isSome) := by
      apply List.filter_congr
      intro n hm
      have : a ≠ n := by rintro rfl; exact hn.1 hm
      simp [lev, Dict.get?, this]
    unfold levelAttrs Dict.keys at *
    simp only [List.filterMap_cons, List.map_cons, List.filter_cons]
    rw [hfil, ← hrec]
    cases hl : r.level with
    | none => simp [lev, Dict.get?, hl]
    | some l => simp [lev, Dict.get?, hl]

/-! ## Edges -/

theorem mem_edgesFrom (g : Graph) (hn : g.keys.Nodup) (seen : List Str) (u v : Str) (t : Nat) :
    ((u, v), t) ∈ edgesFrom seen g ↔
      ∃ r, (u, r) ∈ g ∧ (v, t) ∈ r.nbrs ∧ v ∉ seen ∧ v ∉ g.keys.takeWhile (fun x => x ≠ u) := by
  induction g generalizing seen with
  | nil => simp [edgesFrom]
  | cons p rest ih =>
    obtain ⟨a, r⟩ := p
    simp only [Dict.keys, List.map_cons, List.nodup_cons] at hn
    simp only [edgesFrom, List.mem_append, ih hn.2 (a :: seen)]
    simp only [Dict.keys, List.map_cons, List.mem_cons, Prod.mk.injEq]
    constructor
    · rintro (h | ⟨r', h1, h2, h3, h4⟩)
      · simp only [List.mem_map, List.mem_filter, decide_eq_true_eq] at h
        obtain ⟨⟨x, y⟩, ⟨h1, h2⟩, h3⟩ := h
        simp only [Prod.mk.injEq] at h3
        obtain ⟨⟨rfl, rfl⟩, rfl⟩ := h3
        refine ⟨r, .inl ⟨rfl, rfl⟩, h1, h2, ?_⟩
        simp
      · have hne : a ≠ u := by
          rintro rfl
          exact hn.1 (List.mem_map.2 ⟨_, h1, rfl⟩)
        refine ⟨r', .inr h1, h2, fun h => h3 (.inr h), ?_⟩
        rw [List.takeWhile_cons, if_pos (by simpa using hne)]
        simp only [List.mem_cons, not_or]
        exact ⟨fun h => h3 (.inl h), h4⟩
    · rintro ⟨r', h1, h2, h3, h4⟩
      rcases h1 with ⟨rfl, rfl⟩ | h1
      · left
        simp only [List.mem_map, List.mem_filter, decide_eq_true_eq]
        exact ⟨(v, t), ⟨h2, h3⟩, rfl⟩
      · right
        have hne : a ≠ u := by
          rintro rfl
          exact hn.1 (List.mem_map.2 ⟨_, h1, rfl⟩)
        rw [List.takeWhile_cons, if_pos (by simpa using hne)] at h4
        simp only [List.mem_cons, not_or] at h4
        exact ⟨r', h1, h2, by simp only [not_or]; exact ⟨h4.1, h3⟩, h4.2⟩

/-- `u` comes before `v` in node order, or they are the same. -/
def Before (g : Graph) (u v : Str) : Prop := v ∉ g.keys.takeWhile (fun x => x ≠ u)

instance (g : Graph) (u v : Str) : Decidable (g.Before u v) := by unfold Before; infer_instance

theorem mem_edges {g : Graph} (h : g.Ok) (u v : Str) (t : Nat) :
    ((u, v), t) ∈ g.edges ↔ g.adj u v = some t ∧ g.Before u v := by
  unfold edges Before
  rw [mem_edgesFrom g h.nodup]
  constructor
  · rintro ⟨r, h1, h2, _, h4⟩
    have hg := Dict.get?_of_mem h.nodup h1
    refine ⟨?_, h4⟩
    unfold adj
    rw [hg]
    exact Dict.get?_of_mem (h.nbrs u r hg) h2
  · rintro ⟨h1, h2⟩
    unfold adj at h1
    split at h1
    · rename_i r hr
      exact ⟨r, Dict.mem_of_get? hr, Dict.mem_of_get? h1, by simp, h2⟩
    · simp at h1

theorem nodup_edgesFrom (g : Graph) (hn : g.keys.Nodup) (hb : ∀ n r, (n, r) ∈ g → r.nbrs.keys.Nodup)
    (seen : List Str) : (Dict.keys (edgesFrom seen g)).Nodup := by
  induction g generalizing seen with
  | nil => simp [edgesFrom, Dict.keys]
  | cons p rest ih =>
    obtain ⟨a, r⟩ := p
    simp only [Dict.keys, List.map_cons, List.nodup_cons] at hn
    simp only [edgesFrom, Dict.keys, List.map_append, List.map_map]
    rw [List.nodup_append]
    refine ⟨?_, ih hn.2 (fun n r h => hb n r (by simp [h])) _, ?_⟩
    · have h1 : (r.nbrs.keys).Nodup := hb a r (by simp)
      have h2 : ((r.nbrs.filter (fun p => p.1 ∉ seen)).map Prod.fst).Nodup := by
        have : (r.nbrs.filter (fun p => p.1 ∉ seen)).map Prod.fst = (r.nbrs.map Prod.fst).filter (fun x => x ∉ seen) := by
          rw [List.filter_map]; rfl
        rw [this]; exact h1.filter _
      have h3 : (r.nbrs.filter (fun p => p.1 ∉ seen)).map (Prod.fst ∘ fun p => ((a, p.1), p.2)) =
          ((r.nbrs.filter (fun p => p.1 ∉ seen)).map Prod.fst).map (fun x => (a, x)) := by
        rw [List.map_map]; rfl
      rw [h3]
      exact h2.map (fun x y h => by simpa using h)
    · rintro ⟨x, y⟩ hx ⟨x', y'⟩ hy
      simp only [List.mem_map, Function.comp] at hx
      obtain ⟨_, _, hx⟩ := hx
      simp only [Prod.mk.injEq] at hx
      simp only [List.mem_map] at hy
      obtain ⟨⟨⟨c, d⟩, t⟩, hy, he⟩ := hy
      simp only [Prod.mk.injEq] at he
      have hm := (mem_edgesFrom rest hn.2 _ _ _ _).1 hy
      obtain ⟨r', hr', _⟩ := hm
      intro hc
      simp only [Prod.mk.injEq] at hc
      apply hn.1
      rw [hx.1, hc.1, ← he.1]
      exact List.mem_map.2 ⟨_, hr', rfl⟩

theorem nodup_edges {g : Graph} (h : g.Ok) : (Dict.keys g.edges).Nodup :=
  nodup_edgesFrom g h.nodup (fun n r hm => h.nbrs n r (Dict.get?_of_mem h.nodup hm)) []

theorem get?_edges {g : Graph} (h : g.Ok) (u v : Str) :
    g.edges.get? (u, v) = if g.Before u v then g.adj u v else none := by
  have hm := fun t => (Dict.mem_iff (nodup_edges h) (u, v) t).symm.trans (mem_edges h u v t)
  by_cases hb : g.Before u v
  · rw [if_pos hb]
    cases ha : g.adj u v with
    | some t => exact (hm t).2 ⟨ha, hb⟩
    | none =>
      cases he : g.edges.get? (u, v) with
      | none => rfl
      | some t => have := ((hm t).1 he).1; rw [ha] at this; simp at this
  · rw [if_neg hb]
    cases he : g.edges.get? (u, v) with
    | none => rfl
    | some t => exact absurd ((hm t).1 he).2 hb

theorem takeWhile_cons_ne (a u : Str) (l : List Str) (h : a ≠ u) :
    (a :: l).takeWhile (fun x => x ≠ u) = a :: l.takeWhile (fun x => x ≠ u) := by
  rw [List.takeWhile_cons, if_pos (by simpa using h)]

theorem before_total (g : Graph) (u v : Str) : g.Before u v ∨ g.Before v u := by
  unfold Before
  generalize g.keys = l
  induction l with
  | nil => simp
  | cons a l ih =>
    by_cases hu : a = u
    · left; simp [hu]
    · by_cases hv : a = v
      · right; simp [hv]
      · rw [takeWhile_cons_ne _ _ _ hu, takeWhile_cons_ne _ _ _ hv]
        simp only [List.mem_cons, not_or]
        rcases ih with h | h
        · exact .inl ⟨Ne.symm hv, h⟩
        · exact .inr ⟨Ne.symm hu, h⟩

theorem before_antisymm (g : Graph) (u v : Str) (hu : u ∈ g.keys) (hv : v ∈ g.keys) (h1 : g.Before u v)
    (h2 : g.Before v u) : u = v := by
  unfold Before at *
  revert hu hv h1 h2
  generalize g.keys = l
  intro hu hv h1 h2
  induction l with
  | nil => simp at hu
  | cons a l ih =>
    by_cases ha : a = u
    · by_cases hb : a = v
      · exact ha.symm.trans hb
      · rw [takeWhile_cons_ne _ _ _ hb] at h2
        simp [ha] at h2
    · by_cases hb : a = v
      · rw [takeWhile_cons_ne _ _ _ ha] at h1
        simp [hb] at h1
      · rw [takeWhile_cons_ne _ _ _ ha] at h1
        rw [takeWhile_cons_ne _ _ _ hb] at h2
        simp only [List.mem_cons, not_or] at h1 h2 hu hv
        exact ih (hu.resolve_left (Ne.symm ha)) (hv.resolve_left (Ne.symm hb)) h1.2 h2.2

theorem before_refl (g : Graph) (u : Str) : g.Before u u := by
  rcases before_total g u u with h | h <;> exact h

/-! ## Depth first search -/

/-- `out` extends the visited nodes one at a time along edges. -/
inductive Grow (nb : Str → List Str) : List Str → List (Str × Str) → Prop
  | nil (vis : List Str) : Grow nb vis []
  | cons {vis : List Str} {p c : Str} {out : List (Str × Str)} : p ∈ vis → c ∉ vis → c ∈ nb p →
      Grow nb (c :: vis) out → Grow nb vis ((p, c) :: out)

/-- Remaining work of the search. -/
def dfsMu (V : List Str) (nb : Str → List Str) (st : List (Str × List Str)) (vis : List Str) : Nat :=
  (st.map (fun p => p.2.length + 1)).sum + ((V.filter (fun v => v ∉ vis)).map (fun v => (nb v).length + 1)).sum

theorem sum_filter_remove (f : Str → Nat) (V vis : List Str) (c : Str) (hV : V.Nodup) (hc : c ∈ V) (hv : c ∉ vis) :
    ((V.filter (fun v => v ∉ vis)).map f).sum = ((V.filter (fun v => v ∉ c :: vis)).map f).sum + f c := by
  induction V with
  | nil => simp at hc
  | cons a t ih =>
    simp only [List.nodup_cons] at hV
    by_cases ha : a = c
    · subst ha
      have e : t.filter (fun v => v ∉ a :: vis) = t.filter (fun v => v ∉ vis) := by
        apply List.filter_congr
        intro x hx
        have : x ≠ a := by rintro rfl; exact hV.1 hx
        simp [this]
      simp only [List.filter_cons]
      rw [if_pos (by simpa using hv), if_neg (by simp), e]
      simp only [List.map_cons, List.sum_cons]; omega
    · have hc' : c ∈ t := (List.mem_cons.1 hc).resolve_left (Ne.symm ha)
      have := ih hV.2 hc'
      simp only [List.filter_cons]
      by_cases hav : a ∈ vis
      · rw [if_neg (by simpa using hav), if_neg (by simp [hav])]; exact this
      · rw [if_pos (by simpa using hav), if_pos (by simp [ha, hav])]
        simp only [List.map_cons, List.sum_cons]; omega

theorem dfsLoop_spec (V : List Str) (nb : Str → List Str) (hV : V.Nodup) (hcl : ∀ v ∈ V, ∀ c ∈ nb v, c ∈ V) :
    ∀ (f : Nat) (st : List (Str × List Str)) (vis : List Str),
      (∀ v ∈ vis, v ∈ V) →
      (∀ p ∈ st, p.1 ∈ vis ∧ ∀ c ∈ p.2, c ∈ nb p.1) →
      (∀ v ∈ vis, ∀ c ∈ nb v, c ∈ vis ∨ ∃ p ∈ st, c ∈ p.2) →
      dfsMu V nb st vis ≤ f →
      Grow nb vis (dfsLoop nb f st vis) ∧
      ∀ v, v ∈ vis ∨ v ∈ (dfsLoop nb f st vis).map Prod.snd →
        ∀ c ∈ nb v, c ∈ vis ∨ c ∈ (dfsLoop nb f st vis).map Prod.snd := by
  intro f
  induction f with
  | zero =>
    intro st vis h1 h2 h3 h4
    have hst : st = [] := by
      cases st with
      | nil => rfl
      | cons p t => simp [dfsMu] at h4
    subst hst
    refine ⟨Grow.nil _, ?_⟩
    intro v hv c hc
    simp only [dfsLoop, List.map_nil, List.not_mem_nil, or_false] at hv ⊢
    rcases h3 v hv c hc with h | ⟨p, hp, _⟩
    · exact h
    · simp at hp
  | succ f ih =>
    intro st vis h1 h2 h3 h4
    match st with
    | [] =>
      refine ⟨Grow.nil _, ?_⟩
      intro v hv c hc
      simp only [dfsLoop, List.map_nil, List.not_mem_nil, or_false] at hv ⊢
      rcases h3 v hv c hc with h | ⟨p, hp, _⟩
      · exact h
      · simp at hp
    | (p, []) :: st =>
      simp only [dfsLoop]
      apply ih st vis h1 (fun q hq => h2 q (by simp [hq]))
      · intro v hv c hc
        rcases h3 v hv c hc with h | ⟨q, hq, hqc⟩
        · exact .inl h
        · rcases List.mem_cons.1 hq with rfl | hq
          · simp at hqc
          · exact .inr ⟨q, hq, hqc⟩
      · simp only [dfsMu, List.map_cons, List.sum_cons, List.length_nil] at h4 ⊢; omega
    | (p, c :: cs) :: st =>
      simp only [dfsLoop]
      by_cases hcv : c ∈ vis
      · rw [if_pos hcv]
        apply ih ((p, cs) :: st) vis h1
        · intro q hq
          rcases List.mem_cons.1 hq with rfl | hq
          · have := h2 (p, c :: cs) (by simp)
            exact ⟨this.1, fun d hd => this.2 d (by simp [hd])⟩
          · exact h2 q (by simp [hq])
        · intro v hv d hd
          rcases h3 v hv d hd with h | ⟨q, hq, hqd⟩
          · exact .inl h
          · rcases List.mem_cons.1 hq with rfl | hq
            · rcases List.mem_cons.1 hqd with rfl | hqd
              · exact .inl hcv
              · exact .inr ⟨(p, cs), by simp, hqd⟩
            · exact .inr ⟨q, by simp [hq], hqd⟩
        · simp only [dfsMu, List.map_cons, List.sum_cons, List.length_cons] at h4 ⊢; omega
      · rw [if_neg hcv]
        have hp := h2 (p, c :: cs) (by simp)
        have hcn : c ∈ nb p := hp.2 c (by simp)
        have hcV : c ∈ V := hcl p (h1 p hp.1) c hcn
        obtain ⟨hg, hcl'⟩ := ih ((c, nb c) :: (p, cs) :: st) (c :: vis)
          (by intro v hv; rcases List.mem_cons.1 hv with rfl | hv; exacts [hcV, h1 v hv])
          (by
            intro q hq
            rcases List.mem_cons.1 hq with rfl | hq
            · exact ⟨by simp, fun d hd => hd⟩
            · rcases List.mem_cons.1 hq with rfl | hq
              · exact ⟨List.mem_cons_of_mem _ hp.1, fun d hd => hp.2 d (by simp [hd])⟩
              · have := h2 q (by simp [hq])
                exact ⟨List.mem_cons_of_mem _ this.1, this.2⟩)
          (by
            intro v hv d hd
            rcases List.mem_cons.1 hv with rfl | hv
            · exact .inr ⟨(v, nb v), by simp, hd⟩
            · rcases h3 v hv d hd with h | ⟨q, hq, hqd⟩
              · exact .inl (by simp [h])
              · rcases List.mem_cons.1 hq with rfl | hq
                · rcases List.mem_cons.1 hqd with rfl | hqd
                  · exact .inl (by simp)
                  · exact .inr ⟨(p, cs), by simp, hqd⟩
                · exact .inr ⟨q, by simp [hq], hqd⟩)
          (by
            have := sum_filter_remove (fun v => (nb v).length + 1) V vis c hV hcV hcv
            simp only [dfsMu, List.map_cons, List.sum_cons, List.length_cons] at h4 ⊢
            omega)
        refine ⟨Grow.cons hp.1 hcv hcn hg, ?_⟩
        intro v hv d hd
        simp only [List.map_cons, List.mem_cons] at hv ⊢
        have := hcl' v (by simp only [List.mem_cons]; tauto) d hd
        simp only [List.mem_cons] at this
        tauto

theorem dfsEdges_spec (V : List Str) (nb : Str → List Str) (hV : V.Nodup) (hcl : ∀ v ∈ V, ∀ c ∈ nb v, c ∈ V)
    (s : Str) (hs : s ∈ V) :
    Grow nb [s] (dfsEdges V nb s) ∧ ∀ v ∈ reach V nb s, ∀ c ∈ nb v, c ∈ reach V nb s := by
  obtain ⟨h1, h2⟩ := dfsLoop_spec V nb hV hcl (dfsFuel V nb) [(s, nb s)] [s]
    (by simp [hs]) (by simp) (by intro v hv c hc; simp at hv; subst hv; exact .inr ⟨(v, nb v), by simp, hc⟩)
    (by
      have := sum_filter_remove (fun v => (nb v).length + 1) V [] s hV hs (by simp)
      simp only [dfsMu, dfsFuel, List.map_cons, List.sum_cons, List.map_nil, List.sum_nil]
      simp only [List.not_mem_nil, not_false_eq_true, decide_true, List.filter_true] at this
      omega)
  refine ⟨h1, ?_⟩
  intro v hv c hc
  have := h2 v (by simpa [reach, dfsEdges] using hv) c hc
  simpa [reach, dfsEdges] using this

theorem Grow.mem {nb : Str → List Str} {vis : List Str} {out : List (Str × Str)} (h : Grow nb vis out) :
    ∀ v ∈ out.map Prod.snd, ∃ u ∈ vis, Relation.ReflTransGen (fun a b => b ∈ nb a) u v := by
  induction h with
  | nil => simp
  | @cons vis p c out h1 h2 h3 h4 ih =>
    intro v hv
    simp only [List.map_cons, List.mem_cons] at hv
    rcases hv with rfl | hv
    · exact ⟨p, h1, .single h3⟩
    · obtain ⟨u, hu, hr⟩ := ih v hv
      rcases List.mem_cons.1 hu with rfl | hu
      · exact ⟨p, h1, .head h3 hr⟩
      · exact ⟨u, hu, hr⟩

/-- Reachability along neighbours. -/
abbrev Conn (nb : Str → List Str) : Str → Str → Prop := Relation.ReflTransGen (fun a b => b ∈ nb a)

theorem mem_reach (V : List Str) (nb : Str → List Str) (hV : V.Nodup) (hcl : ∀ v ∈ V, ∀ c ∈ nb v, c ∈ V)
    (s : Str) (hs : s ∈ V) (v : Str) : v ∈ reach V nb s ↔ Conn nb s v := by
  obtain ⟨h1, h2⟩ := dfsEdges_spec V nb hV hcl s hs
  constructor
  · intro hv
    simp only [reach, List.mem_cons] at hv
    rcases hv with rfl | hv
    · exact .refl
    · obtain ⟨u, hu, hr⟩ := h1.mem v hv
      simp at hu; subst hu; exact hr
  · intro hr
    induction hr with
    | refl => simp [reach]
    | tail _ hbc ih => exact h2 _ ih _ hbc

theorem Grow.nodup {nb : Str → List Str} {vis : List Str} {out : List (Str × Str)} (h : Grow nb vis out) :
    (out.map Prod.snd).Nodup ∧ ∀ v ∈ out.map Prod.snd, v ∉ vis := by
  induction h with
  | nil => simp
  | @cons vis p c out h1 h2 h3 h4 ih =>
    simp only [List.map_cons, List.nodup_cons, List.mem_cons]
    refine ⟨⟨fun hc => ih.2 c hc (by simp), ih.1⟩, ?_⟩
    rintro v (rfl | hv)
    · exact h2
    · intro hc; exact ih.2 v hv (by simp [hc])

theorem nodup_reach (V : List Str) (nb : Str → List Str) (hV : V.Nodup) (hcl : ∀ v ∈ V, ∀ c ∈ nb v, c ∈ V)
    (s : Str) (hs : s ∈ V) : (reach V nb s).Nodup := by
  obtain ⟨h1, _⟩ := dfsEdges_spec V nb hV hcl s hs
  have := h1.nodup
  simp only [reach, List.nodup_cons]
  exact ⟨fun h => this.2 s h (by simp), this.1⟩

theorem Conn.mem {V : List Str} {nb : Str → List Str} (hcl : ∀ v ∈ V, ∀ c ∈ nb v, c ∈ V) {s v : Str} (hs : s ∈ V)
    (h : Conn nb s v) : v ∈ V := by
  induction h with
  | refl => exact hs
  | tail _ hbc ih => exact hcl _ ih _ hbc

theorem Conn.symm {nb : Str → List Str} (hsym : ∀ a b, b ∈ nb a → a ∈ nb b) {s v : Str} (h : Conn nb s v) :
    Conn nb v s := by
  induction h with
  | refl => exact .refl
  | tail _ hbc ih => exact .head (hsym _ _ hbc) ih

/-- The components: each is the reach of one of its nodes, they are disjoint and they cover the listed nodes. -/
theorem compsFrom_spec (V : List Str) (nb : Str → List Str) (hV : V.Nodup) (hcl : ∀ v ∈ V, ∀ c ∈ nb v, c ∈ V)
    (hsym : ∀ a b, b ∈ nb a → a ∈ nb b) :
    ∀ (vs seen : List Str), (∀ v ∈ vs, v ∈ V) → (∀ v ∈ seen, ∀ c, Conn nb v c → c ∈ seen) →
      (∀ c ∈ compsFrom V nb vs seen, ∃ v ∈ vs, v ∉ seen ∧ c = reach V nb v) ∧
      (compsFrom V nb vs seen).Pairwise (fun c d => ∀ x ∈ c, x ∉ d) ∧
      (∀ v ∈ vs, v ∈ seen ∨ ∃ c ∈ compsFrom V nb vs seen, v ∈ c) := by
  intro vs
  induction vs with
  | nil => intro seen _ _; simp [compsFrom]
  | cons v vs ih =>
    intro seen h1 h2
    simp only [compsFrom]
    by_cases hv : v ∈ seen
    · rw [if_pos hv]
      obtain ⟨a, b, c⟩ := ih seen (fun u hu => h1 u (by simp [hu])) h2
      refine ⟨?_, b, ?_⟩
      · intro x hx
        obtain ⟨u, hu, hu2⟩ := a x hx
        exact ⟨u, by simp [hu], hu2⟩
      · intro u hu
        rcases List.mem_cons.1 hu with rfl | hu
        · exact .inl hv
        · exact c u hu
    · rw [if_neg hv]
      have hvV := h1 v (by simp)
      have hreach := mem_reach V nb hV hcl v hvV
      have hseen : ∀ u ∈ reach V nb v ++ seen, ∀ c, Conn nb u c → c ∈ reach V nb v ++ seen := by
        intro u hu c hc
        rcases List.mem_append.1 hu with hu | hu
        · exact List.mem_append_left _ ((hreach c).2 (((hreach u).1 hu).trans hc))
        · exact List.mem_append_right _ (h2 u hu c hc)
      obtain ⟨a, b, c⟩ := ih _ (fun u hu => h1 u (by simp [hu])) hseen
      refine ⟨?_, ?_, ?_⟩
      · intro x hx
        rcases List.mem_cons.1 hx with rfl | hx
        · exact ⟨v, by simp, hv, rfl⟩
        · obtain ⟨u, hu, hu2, hu3⟩ := a x hx
          exact ⟨u, by simp [hu], fun h => hu2 (List.mem_append_right _ h), hu3⟩
      · rw [List.pairwise_cons]
        refine ⟨?_, b⟩
        intro d hd x hx hxd
        obtain ⟨u, hu, hu2, rfl⟩ := a d hd
        have huV := h1 u (by simp [hu])
        have hx' := (mem_reach V nb hV hcl u huV x).1 hxd
        apply hu2
        exact List.mem_append_left _ ((hreach u).2 (((hreach x).1 hx).trans (Conn.symm hsym hx')))
      · intro u hu
        rcases List.mem_cons.1 hu with rfl | hu
        · exact .inr ⟨reach V nb u, by simp, by simp [reach]⟩
        · rcases c u hu with h | ⟨d, hd, hud⟩
          · rcases List.mem_append.1 h with h | h
            · exact .inr ⟨reach V nb v, by simp, h⟩
            · exact .inl h
          · exact .inr ⟨d, by simp [hd], hud⟩

end Graph
end AtomTk
