import Mathlib.Combinatorics.SimpleGraph.Acyclic
import Verif.Proofs.Components

/-! # Loop-free graphs have potentials -/

namespace AtomTk

section Forest
variable {V : Type} {G : SimpleGraph V}

/-- The sum of the weights along a walk. -/
def wt (a : V → V → ℚ) : {u v : V} → G.Walk u v → ℚ
  | _, _, .nil => 0
  | u, _, .cons (v := v) _ p => a u v + wt a p

theorem wt_concat (a : V → V → ℚ) {u v x : V} (p : G.Walk u v) (h : G.Adj v x) :
    wt a (p.concat h) = wt a p + a v x := by
  induction p with
  | nil => simp [SimpleGraph.Walk.concat, SimpleGraph.Walk.append, wt]
  | cons h' p ih =>
    rw [SimpleGraph.Walk.concat_cons]
    simp only [wt]
    rw [ih h]; ring

theorem wt_adj (hG : G.IsAcyclic) (a : V → V → ℚ) (hanti : ∀ u v, G.Adj u v → a u v = - a v u) {r u v : V}
    (p : G.Walk r u) (q : G.Walk r v) (hp : p.IsPath) (hq : q.IsPath) (h : G.Adj u v) :
    wt a q - wt a p = a u v := by
  classical
  by_cases hv : v ∈ p.support
  · have hne : u ≠ v := h.ne
    have hnu : u ∉ (p.takeUntil v hv).support := SimpleGraph.Walk.endpoint_notMem_support_takeUntil hp hv hne
    have hq' : p.takeUntil v hv = q := by
      have := (hG.subsingleton_path _ _).elim (α := G.Path _ _) ⟨p.takeUntil v hv, hp.takeUntil hv⟩ ⟨q, hq⟩
      exact congrArg Subtype.val this
    rw [hq'] at hnu
    have hp' : q.concat h.symm = p := by
      have := (hG.subsingleton_path _ _).elim (α := G.Path _ _) ⟨q.concat h.symm, hq.concat hnu h.symm⟩ ⟨p, hp⟩
      exact congrArg Subtype.val this
    rw [← hp', wt_concat, hanti u v h]; ring
  · have : p.concat h = q := by
      have := (hG.subsingleton_path _ _).elim (α := G.Path _ _) ⟨p.concat h, hp.concat hv h⟩ ⟨q, hq⟩
      exact congrArg Subtype.val this
    rw [← this, wt_concat]; ring

/-- On a loop-free graph every antisymmetric edge weight is a difference. -/
theorem forest_potential (hG : G.IsAcyclic) (a : V → V → ℚ) (hanti : ∀ u v, G.Adj u v → a u v = - a v u) :
    ∃ φ : V → ℚ, ∀ u v, G.Adj u v → φ v - φ u = a u v := by
  classical
  have hroot : ∀ v, ∃ p : G.Walk (Quot.out (G.connectedComponentMk v)) v, p.IsPath := by
    intro v
    have hr : G.Reachable (Quot.out (G.connectedComponentMk v)) v := by
      have := Quot.out_eq (G.connectedComponentMk v)
      exact SimpleGraph.ConnectedComponent.exact this
    obtain ⟨p, hp⟩ := hr.exists_isPath
    exact ⟨p, hp⟩
  choose P hP using hroot
  refine ⟨fun v => wt a (P v), ?_⟩
  intro u v h
  have hc : G.connectedComponentMk u = G.connectedComponentMk v :=
    SimpleGraph.ConnectedComponent.sound h.reachable
  have key : ∀ (r : V) (hr : r = Quot.out (G.connectedComponentMk v)) (p : G.Walk r u), p.IsPath →
      wt a (P v) - wt a p = a u v := by
    intro r hr p hp
    subst hr
    exact wt_adj hG a hanti p (P v) hp (hP v) h
  exact key _ (by rw [hc]) (P u) (hP u)

/-- A graph in which every vertex has at most one neighbour of lower rank is loop-free. -/
theorem acyclic_of_parent (par : V → V) (rk : V → ℕ)
    (h : ∀ a b, G.Adj a b → (b = par a ∧ rk b < rk a) ∨ (a = par b ∧ rk a < rk b)) : G.IsAcyclic := by
  classical
  intro u c hc
  obtain ⟨m, hm, hmax⟩ := c.support.toFinset.exists_max_image rk ⟨u, by simp⟩
  rw [List.mem_toFinset] at hm
  have hc' := (SimpleGraph.Walk.isCycle_rotate hm).2 hc
  set d := c.rotate m hm with hd
  have hsup : ∀ x ∈ d.support, rk x ≤ rk m := by
    intro x hx
    apply hmax
    rw [List.mem_toFinset]
    exact (c.mem_support_rotate_iff m hm).1 hx
  have h1 := d.adj_snd hc'.not_nil
  have h2 := d.adj_penultimate hc'.not_nil
  have e1 : d.snd = par m := by
    rcases h _ _ h1 with ⟨e, _⟩ | ⟨_, e⟩
    · exact e
    · exact absurd (hsup d.snd (d.getVert_mem_support _)) (not_le.2 e)
  have e2 : d.penultimate = par m := by
    rcases h _ _ h2 with ⟨_, e⟩ | ⟨e, _⟩
    · exact absurd (hsup d.penultimate (d.getVert_mem_support _)) (not_le.2 e)
    · exact e
  exact hc'.snd_ne_penultimate (e1.trans e2.symm)

end Forest

namespace World

/-- The graph of the transitions with set frequency in a group. -/
def setGraph (w : World) (hw : WF w) (X : Str → Prop) : SimpleGraph Str where
  Adj u v := u ≠ v ∧ X u ∧ X v ∧ ∃ t f, SetEdge w u v t f
  symm := by
    constructor
    rintro u v ⟨h1, h2, h3, t, f, h⟩
    exact ⟨h1.symm, h3, h2, t, f, h.symm hw⟩
  loopless := by
    constructor
    rintro u ⟨h, _⟩
    exact h rfl

theorem LoopFree.acyclic {w : World} (hw : WF w) {X : Str → Prop} (h : LoopFree w X) : (setGraph w hw X).IsAcyclic := by
  refine SimpleGraph.IsAcyclic.anti ?_ h.1
  rintro a b ⟨h1, h2, h3, h4⟩
  rw [SimpleGraph.fromRel_adj]
  exact ⟨h1, .inl ⟨h2, h3, h4⟩⟩

theorem LoopFree.potential {w : World} (hw : WF w) {X : Str → Prop} (h : LoopFree w X)
    (hcl : ∀ n m t f, X n → SetEdge w n m t f → X m) (hf : ∀ n m t f, X n → SetEdge w n m t f → 0 ≤ f) :
    ∃ φ, Potential w X φ := by
  classical
  set a : Str → Str → ℚ := fun u v =>
    match w.g.adj u v with
    | some t => (match (w.tr t).setFreq with
      | some f => if w.lname (w.tr t).lower = u then f else -f
      | none => 0)
    | none => 0 with ha
  have hval : ∀ u v t f, SetEdge w u v t f → a u v = if w.lname (w.tr t).lower = u then f else -f := by
    intro u v t f he
    simp only [ha, he.1, he.2]
  have hlu : ∀ u v t f, u ≠ v → SetEdge w u v t f →
      (u = w.lname (w.tr t).lower ∧ v = w.lname (w.tr t).upper ∧ a u v = f) ∨
      (u = w.lname (w.tr t).upper ∧ v = w.lname (w.tr t).lower ∧ a u v = -f) := by
    intro u v t f hne he
    obtain ⟨_, _, _, _, h5, _⟩ := hw.edge u v t he.1
    have hv := hval u v t f he
    rcases h5 with ⟨e1, e2⟩ | ⟨e1, e2⟩
    · left; rw [if_pos e1.symm] at hv; exact ⟨e1, e2, hv⟩
    · right
      rw [if_neg (by rw [← e2]; exact hne.symm)] at hv
      exact ⟨e1, e2, hv⟩
  obtain ⟨φ, hφ⟩ := forest_potential (h.acyclic hw) a (by
    rintro u v ⟨hne, _, _, t, f, he⟩
    rcases hlu u v t f hne he with ⟨e1, e2, e3⟩ | ⟨e1, e2, e3⟩
    · rcases hlu v u t f hne.symm (he.symm hw) with ⟨k1, k2, k3⟩ | ⟨k1, k2, k3⟩
      · exact absurd (e1.trans k1.symm) hne
      · rw [e3, k3]; ring
    · rcases hlu v u t f hne.symm (he.symm hw) with ⟨k1, k2, k3⟩ | ⟨k1, k2, k3⟩
      · rw [e3, k3]
      · exact absurd (e1.trans k1.symm) hne)
  refine ⟨fun i => φ (w.lname i), ?_⟩
  intro n m t f hn he
  refine ⟨hf n m t f hn he, ?_⟩
  have hne : n ≠ m := by rintro rfl; exact h.2 n t f hn he
  have hm := hcl n m t f hn he
  rcases hlu n m t f hne he with ⟨e1, e2, e3⟩ | ⟨e1, e2, e3⟩
  · have := hφ n m ⟨hne, hn, hm, t, f, he⟩
    rw [e3] at this
    simp only [← e1, ← e2]; exact this
  · have := hφ n m ⟨hne, hn, hm, t, f, he⟩
    rw [e3] at this
    simp only [← e1, ← e2]
    linarith

end World
end AtomTk
