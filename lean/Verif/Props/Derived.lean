import Verif.Model.Derived
import Verif.Props.Transitions

/-! # C43, C44, C48: branching ratios, lifetimes, `populate_transitions` -/

namespace AtomTk
open Util World

/-! ## Reading the rates -/

theorem rates_ok (w : World) (e : PyErr) (ts : List Nat) (h : ∀ t ∈ ts, (w.tr t).built = true ∧ ∃ a, (w.tr t).A = some a) :
    w.rates e ts = .ok (ts.map (fun t => ((w.tr t).A).getD 0)) := by
  induction ts with
  | nil => rfl
  | cons t ts ih =>
    obtain ⟨hb, a, ha⟩ := h t (by simp)
    unfold rates
    rw [if_pos hb, ha, ih (fun t ht => h t (by simp [ht]))]
    simp [ha, bind, Except.bind]

theorem rates_err (w : World) (e : PyErr) (ts : List Nat) (hb : ∀ t ∈ ts, (w.tr t).built = true)
    (h : ∃ t ∈ ts, (w.tr t).A = none) : w.rates e ts = .error e := by
  induction ts with
  | nil => simp at h
  | cons t ts ih =>
    unfold rates
    rw [if_pos (hb t (by simp))]
    obtain ⟨t', h1, h2⟩ := h
    cases hA : (w.tr t).A with
    | none => rfl
    | some a =>
      have : t' ∈ ts := by
        rcases List.mem_cons.1 h1 with rfl | h
        · rw [h2] at hA; cases hA
        · exact h
      rw [ih (fun t ht => hb t (by simp [ht])) ⟨t', this, h2⟩]
      rfl

/-- The transitions out of level `i` (named `key`) to a level below: spec-side description. -/
def Decay (w : World) (key : Str) (i : Nat) (n : Str) (t : Nat) : Prop :=
  n ≠ key ∧ w.g.adj key n = some t ∧ (w.tr t).upper = i

theorem linked_keys {w : World} (hr : Reachable w) {key : Str} {d : Dict Str Nat} (h : linkedLevels key w = (w, .ok d))
    (hp : Plain w key) {i : Nat} (hl : w.g.lev key = some i) : d.keys.Nodup := by
  obtain ⟨r, hr'⟩ := (Dict.get?_isSome w.g key).2 (Graph.mem_of_lev hl)
  have h1 : linkedLevels key w = (w, .ok (r.nbrs.filter (fun p => p.1 ≠ key))) := by
    unfold linkedLevels
    rw [PyM.bind_ok (levelsGet_plain hr.wf.gok.nodup hp hl), PyM.bind_ok (show PyM.get w = (w, .ok w) from rfl)]
    simp only [hr']
    rfl
  rw [h1] at h
  have h2 : r.nbrs.filter (fun p => p.1 ≠ key) = d := by simpa using (Prod.mk.inj h).2
  rw [← h2]
  have := hr.wf.gok.nbrs key r hr'
  exact (List.filter_sublist.map _).nodup this

theorem upper_name {w : World} (hr : Reachable w) {key : Str} {i : Nat} (hl : w.g.lev key = some i) {n : Str} {t : Nat}
    (h : w.g.adj key n = some t) : w.lname (w.tr t).upper = key ↔ (w.tr t).upper = i := by
  obtain ⟨_, _, _, h4, _⟩ := hr.wf.edge _ _ _ h
  constructor
  · intro e; rw [e, hl] at h4; simpa using h4.symm
  · intro e; rw [e]; exact (hr.wf.node _ _ hl).1

/-- The list of decays, and its properties. -/
theorem decays {w : World} (hr : Reachable w) {key : Str} {i : Nat} (hp : Plain w key) (hl : w.g.lev key = some i) :
    ∃ d l : Dict Str Nat, linkedLevels key w = (w, .ok d) ∧ d.filter (fun p => w.lname (w.tr p.2).upper = key) = l ∧
      d.filter (fun p => Ref.fine (w.tr p.2).upper = Ref.fine i) = l ∧ l.keys.Nodup ∧
      ∀ n t, (n, t) ∈ l ↔ Decay w key i n t := by
  obtain ⟨d, h1, h2, h3, _⟩ := C42_neighbours_partial w key i hr hp hl
  have hd := linked_keys hr h1 hp hl
  refine ⟨d, _, h1, rfl, ?_, (List.filter_sublist.map _).nodup hd, ?_⟩
  · apply List.filter_congr
    intro p hpm
    have := (h3 p.1 p.2).1 ((Dict.mem_iff hd _ _).1 hpm)
    have hu := upper_name hr hl this.2
    simp only [Ref.fine.injEq, decide_eq_decide]
    exact hu.symm
  · intro n t
    rw [List.mem_filter, Dict.mem_iff hd, h3, decide_eq_true_eq]
    constructor
    · rintro ⟨⟨a, b⟩, c⟩; exact ⟨a, b, (upper_name hr hl b).1 c⟩
    · rintro ⟨a, b, c⟩; exact ⟨⟨a, b⟩, (upper_name hr hl b).2 c⟩

/-! ## C43 -/

/-- Listing, with energies as they are now. -/
def C43_lists : Prop := ∀ w key i d, Reachable w → Plain w key → w.g.lev key = some i → branching key w = (w, .ok d) →
  ∀ n j, w.g.lev n = some j → (n ∈ d.keys ↔ n ≠ key ∧ w.g.adj key n ≠ none ∧ w.eHz j < w.eHz i)

/-- A missing coefficient raises `ValueError`. -/
def C43_missing : Prop := ∀ w key i, Reachable w → Plain w key → w.g.lev key = some i →
  (∃ n t, Decay w key i n t ∧ (w.tr t).A = none) → (branching key w).2 = .error .ValueError

theorem map_zip_fst {α β : Type} (l : List α) (m : List β) (h : l.length = m.length) : (l.zip m).map (·.1) = l := by
  exact List.map_fst_zip (le_of_eq h)

/-- C43: the levels listed are exactly those below through a transition (below: at construction of the transition); the ratios
are the shares of the total rate, between 0 and 1, and sum to 1 if some rate is not zero. -/
theorem C43_distribution_partial (w : World) (key : Str) (i : Nat) (hr : Reachable w) (hp : Plain w key)
    (hl : w.g.lev key = some i) (hA : ∀ n t, Decay w key i n t → ∃ a, (w.tr t).A = some a ∧ 0 ≤ a) :
    ∃ d, branching key w = (w, .ok d) ∧ d.keys.Nodup ∧ (∀ n, n ∈ d.keys ↔ ∃ t, Decay w key i n t) ∧
      ((∃ n t a, Decay w key i n t ∧ (w.tr t).A = some a ∧ a ≠ 0) →
        ∃ rs : List ℚ, d.vals = rs.map some ∧ rs.sum = 1 ∧ (∀ r ∈ rs, 0 ≤ r ∧ r ≤ 1) ∧
        ∃ tot, 0 < tot ∧ ∀ n t a, Decay w key i n t → (w.tr t).A = some a → d.get? n = some (some (a / tot))) := by
  obtain ⟨d, l, h1, h2, _, h4, h5⟩ := decays hr hp hl
  have hbuilt : ∀ t ∈ l.map (·.2), (w.tr t).built = true ∧ ∃ a, (w.tr t).A = some a := by
    intro t ht
    obtain ⟨⟨n, t⟩, hm, rfl⟩ := List.mem_map.1 ht
    have := (h5 n t).1 hm
    obtain ⟨a, ha, _⟩ := hA n t this
    exact ⟨(hr.wf.edge _ _ _ this.2.1).2.1, a, ha⟩
  set rate : Nat → ℚ := fun t => ((w.tr t).A).getD 0 with hrate
  set as := (l.map (·.2)).map rate with has
  have hb : branching key w = (w, .ok ((l.map (·.1)).zip (as.map (fun a => ratio a as.sum)))) := by
    unfold branching
    rw [PyM.bind_ok h1, PyM.bind_ok (show PyM.get w = (w, .ok w) from rfl)]
    simp only [h2]
    rw [PyM.bind_ok (show PyM.lift (w.rates .AttributeError (l.map (·.2))) w = (w, .ok as) by
      unfold PyM.lift; rw [rates_ok w _ _ hbuilt])]
    rfl
  have hlen : (l.map (·.1)).length = (as.map (fun a => ratio a as.sum)).length := by simp [has]
  have hkeys : Dict.keys ((l.map (·.1)).zip (as.map (fun a => ratio a as.sum))) = l.map (·.1) := map_zip_fst _ _ hlen
  have hnn : ∀ a ∈ as, 0 ≤ a := by
    intro a ha
    obtain ⟨t, ht, rfl⟩ := List.mem_map.1 ha
    obtain ⟨⟨n, t⟩, hm, rfl⟩ := List.mem_map.1 ht
    obtain ⟨a, ha, h0⟩ := hA n t ((h5 n t).1 hm)
    simp only [hrate, ha, Option.getD_some]; exact h0
  refine ⟨_, hb, by rw [hkeys]; exact h4, ?_, ?_⟩
  · intro n
    rw [hkeys]
    constructor
    · intro h
      obtain ⟨⟨n, t⟩, hm, rfl⟩ := List.mem_map.1 h
      exact ⟨t, (h5 _ _).1 hm⟩
    · rintro ⟨t, ht⟩
      exact List.mem_map.2 ⟨(n, t), (h5 _ _).2 ht, rfl⟩
  · rintro ⟨n, t, a, hd, ha, hne⟩
    have hmem : a ∈ as := List.mem_map.2 ⟨t, List.mem_map.2 ⟨(n, t), (h5 _ _).2 hd, rfl⟩, by simp [hrate, ha]⟩
    have hpos : 0 < as.sum := lt_of_lt_of_le (lt_of_le_of_ne (hnn a hmem) (Ne.symm hne)) (List.single_le_sum hnn a hmem)
    have hratio : ∀ x, ratio x as.sum = some (x / as.sum) := fun x => by unfold ratio; rw [if_neg hpos.ne']
    refine ⟨as.map (· / as.sum), ?_, ?_, ?_, as.sum, hpos, ?_⟩
    · unfold Dict.vals
      rw [List.map_snd_zip (le_of_eq hlen.symm), List.map_congr_left (fun x _ => hratio x)]
      exact (List.map_map (l := as) (f := (· / as.sum)) (g := some)).symm
    · rw [show (as.map (· / as.sum)) = as.map (· * (as.sum)⁻¹) from List.map_congr_left (fun x _ => div_eq_mul_inv _ _),
        List.sum_map_mul_right, List.map_id', mul_inv_cancel₀ hpos.ne']
    · intro r hr
      obtain ⟨x, hx, rfl⟩ := List.mem_map.1 hr
      exact ⟨div_nonneg (hnn x hx) hpos.le, (div_le_one hpos).2 (List.single_le_sum hnn x hx)⟩
    · intro n t a hd ha
      apply Dict.get?_of_mem (by rw [hkeys]; exact h4)
      have e : as.map (fun a => ratio a as.sum) = l.map (fun p => some (rate p.2 / as.sum)) := by
        rw [List.map_congr_left (fun x _ => hratio x)]
        rw [has, List.map_map, List.map_map]; rfl
      rw [e, List.zip_map']
      refine List.mem_map.2 ⟨(n, t), (h5 _ _).2 hd, ?_⟩
      simp [hrate, ha]

/-- C43, the boundary case: if no rate is different from zero the ratios are 0/0, not-a-number, for every level listed. -/
theorem C43_zero_partial (w : World) (key : Str) (i : Nat) (hr : Reachable w) (hp : Plain w key)
    (hl : w.g.lev key = some i) (hA : ∀ n t, Decay w key i n t → (w.tr t).A = some 0) :
    ∃ d, branching key w = (w, .ok d) ∧ (∀ n, n ∈ d.keys ↔ ∃ t, Decay w key i n t) ∧ ∀ r ∈ d.vals, r = none := by
  obtain ⟨d, l, h1, h2, _, h4, h5⟩ := decays hr hp hl
  have hbuilt : ∀ t ∈ l.map (·.2), (w.tr t).built = true ∧ ∃ a, (w.tr t).A = some a := by
    intro t ht
    obtain ⟨⟨n, t⟩, hm, rfl⟩ := List.mem_map.1 ht
    have := (h5 n t).1 hm
    exact ⟨(hr.wf.edge _ _ _ this.2.1).2.1, 0, hA n t this⟩
  have has : ∀ a ∈ (l.map (·.2)).map (fun t => ((w.tr t).A).getD 0), a = 0 := by
    intro a ha
    obtain ⟨t, ht, rfl⟩ := List.mem_map.1 ha
    obtain ⟨⟨n, t⟩, hm, rfl⟩ := List.mem_map.1 ht
    simp [hA n t ((h5 n t).1 hm)]
  set as := (l.map (·.2)).map (fun t => ((w.tr t).A).getD 0) with hasd
  have hsum : as.sum = 0 := List.sum_eq_zero has
  have hb : branching key w = (w, .ok ((l.map (·.1)).zip (as.map (fun a => ratio a as.sum)))) := by
    unfold branching
    rw [PyM.bind_ok h1, PyM.bind_ok (show PyM.get w = (w, .ok w) from rfl)]
    simp only [h2]
    rw [PyM.bind_ok (show PyM.lift (w.rates .AttributeError (l.map (·.2))) w = (w, .ok as) by
      unfold PyM.lift; rw [rates_ok w _ _ hbuilt])]
    rfl
  have hlen : (l.map (·.1)).length = (as.map (fun a => ratio a as.sum)).length := by simp [hasd]
  have hkeys : Dict.keys ((l.map (·.1)).zip (as.map (fun a => ratio a as.sum))) = l.map (·.1) := map_zip_fst _ _ hlen
  refine ⟨_, hb, ?_, ?_⟩
  · intro n
    rw [hkeys]
    constructor
    · intro h
      obtain ⟨⟨n, t⟩, hm, rfl⟩ := List.mem_map.1 h
      exact ⟨t, (h5 _ _).1 hm⟩
    · rintro ⟨t, ht⟩
      exact List.mem_map.2 ⟨(n, t), (h5 _ _).2 ht, rfl⟩
  · intro r hr
    unfold Dict.vals at hr
    rw [List.map_snd_zip (le_of_eq hlen.symm)] at hr
    obtain ⟨a, -, rfl⟩ := List.mem_map.1 hr
    unfold ratio
    rw [if_pos hsum]

/-- C43: when the orientation given at construction is still that of the energies, the levels listed are those of lower
energy. -/
theorem C43_oriented_partial (w : World) (key : Str) (i : Nat) (d : Dict Str (Option ℚ)) (hr : Reachable w) (hp : Plain w key)
    (hl : w.g.lev key = some i) (hA : ∀ n t, Decay w key i n t → ∃ a, (w.tr t).A = some a ∧ 0 ≤ a)
    (hor : ∀ n t, w.g.adj key n = some t → w.eHz (w.tr t).lower < w.eHz (w.tr t).upper)
    (hd : branching key w = (w, .ok d)) (n : Str) (j : Nat) (hj : w.g.lev n = some j) :
    n ∈ d.keys ↔ n ≠ key ∧ w.g.adj key n ≠ none ∧ w.eHz j < w.eHz i := by
  obtain ⟨d', h1, _, h3, _⟩ := C43_distribution_partial w key i hr hp hl hA
  rw [h1] at hd
  have : d' = d := by simpa using (Prod.mk.inj hd).2
  subst this
  rw [h3]
  have ends : ∀ t, w.g.adj key n = some t → ((w.tr t).lower = i ∧ (w.tr t).upper = j) ∨ ((w.tr t).lower = j ∧ (w.tr t).upper = i) := by
    intro t ht
    obtain ⟨_, _, a3, a4, a5, _⟩ := hr.wf.edge _ _ _ ht
    rcases a5 with ⟨e1, e2⟩ | ⟨e1, e2⟩
    · rw [← e1, hl] at a3; rw [← e2, hj] at a4; simp at a3 a4; exact .inl ⟨a3.symm, a4.symm⟩
    · rw [← e1, hl] at a4; rw [← e2, hj] at a3; simp at a3 a4; exact .inr ⟨a3.symm, a4.symm⟩
  constructor
  · rintro ⟨t, a, b, c⟩
    refine ⟨a, by rw [b]; simp, ?_⟩
    have ho := hor n t b
    rcases ends t b with ⟨e1, e2⟩ | ⟨e1, e2⟩
    · have : i = j := c.symm.trans e2
      subst this
      rw [e1, e2] at ho; exact absurd ho (lt_irrefl _)
    · rw [e1, e2] at ho; exact ho
  · rintro ⟨a, b, c⟩
    obtain ⟨t, ht⟩ := Option.ne_none_iff_exists'.1 b
    refine ⟨t, a, ht, ?_⟩
    have ho := hor n t ht
    rcases ends t ht with ⟨e1, e2⟩ | ⟨e1, e2⟩
    · rw [e1, e2] at ho; exact absurd ho (not_lt.2 c.le)
    · exact e2

/-- C43: a missing A coefficient always raises, but `AttributeError`. -/
theorem C43_raises_partial (w : World) (key : Str) (i : Nat) (hr : Reachable w) (hp : Plain w key) (hl : w.g.lev key = some i)
    (h : ∃ n t, Decay w key i n t ∧ (w.tr t).A = none) : branching key w = (w, .error .AttributeError) := by
  obtain ⟨d, l, h1, h2, _, h4, h5⟩ := decays hr hp hl
  obtain ⟨n, t, hd, hA⟩ := h
  unfold branching
  rw [PyM.bind_ok h1, PyM.bind_ok (show PyM.get w = (w, .ok w) from rfl)]
  simp only [h2]
  refine PyM.bind_err ?_
  unfold PyM.lift
  rw [rates_err w _ _ ?_ ⟨t, List.mem_map.2 ⟨(n, t), (h5 _ _).2 hd, rfl⟩, hA⟩]
  intro t ht
  obtain ⟨⟨n, t⟩, hm, rfl⟩ := List.mem_map.1 ht
  exact (hr.wf.edge _ _ _ ((h5 n t).1 hm).2.1).2.1

/-- A physical rate: a number and the size of its unit in Hz. -/
structure Quantity where
  mag : ℚ
  unit : ℚ

/-- `self._A.to(Hz)` (atom.py:610). -/
def Quantity.toHz (q : Quantity) : AArg := .hz (q.mag * q.unit)

/-- C43: the same rate in another unit makes the same transition. -/
theorem C43_units (a b : Nat) (f : Option ℚ) (ali : Option Str) (q q' : Quantity) (h : q.mag * q.unit = q'.mag * q'.unit) :
    World.newTrans a b f q.toHz ali = World.newTrans a b f q'.toHz ali := by
  unfold Quantity.toHz
  rw [h]

theorem C43_missing_fails : ¬C43_missing := by
  intro h
  let ops := threeLevels 0 5 9 ++ [.newTrans 0 1 none .none none]
  have := h (runAll ops (emptyAtom 0 0)) (demoName 'a') 1 (demo_reachable (by decide +kernel)) (by decide +kernel)
    (by decide +kernel) ⟨demoName 'g', 0, ⟨by decide +kernel, by decide +kernel, by decide +kernel⟩, by decide +kernel⟩
  revert this
  decide +kernel

/-- After the energies have been exchanged, the level above is still listed. -/
theorem C43_lists_fails : ¬C43_lists := by
  intro h
  let ops := threeLevels 0 5 9 ++ [.newTrans 0 1 none (.hz 2) none, .setEnergy 0 20]
  have hb : (branching (demoName 'a') (runAll ops (emptyAtom 0 0))).2 = .ok [(demoName 'g', some 1)] := by decide +kernel
  have hr : Reachable (runAll ops (emptyAtom 0 0)) := demo_reachable (by decide +kernel)
  obtain ⟨d, h1, _⟩ := C43_distribution_partial _ (demoName 'a') 1 hr (by decide +kernel) (by decide +kernel) (by
    intro n t hd
    have : ∀ p ∈ (runAll ops (emptyAtom 0 0)).g.edges, 0 ≤ ((((runAll ops (emptyAtom 0 0)).tr p.2).A).getD (-1)) := by decide +kernel
    have hm : ∃ p ∈ (runAll ops (emptyAtom 0 0)).g.edges, p.2 = t := by
      rcases Graph.before_total (runAll ops (emptyAtom 0 0)).g (demoName 'a') n with hb | hb
      · have := Graph.get?_edges hr.wf.gok (demoName 'a') n
        rw [if_pos hb, hd.2.1] at this
        exact ⟨_, Dict.mem_of_get? this, rfl⟩
      · have := Graph.get?_edges hr.wf.gok n (demoName 'a')
        rw [if_pos hb, hr.wf.gok.symm, hd.2.1] at this
        exact ⟨_, Dict.mem_of_get? this, rfl⟩
    obtain ⟨p, hp, rfl⟩ := hm
    have := this p hp
    cases hA : ((runAll ops (emptyAtom 0 0)).tr p.2).A with
    | none => rw [hA] at this; simp at this; exact absurd this (by norm_num)
    | some a => rw [hA] at this; exact ⟨a, rfl, this⟩)
  have h2 : d = [(demoName 'g', some 1)] := by
    rw [h1] at hb
    simpa using hb
  subst h2
  have := (h _ (demoName 'a') 1 _ hr (by decide +kernel) (by decide +kernel) h1 (demoName 'g') 0 (by decide +kernel)).1
    (by decide +kernel)
  have := this.2.2
  revert this
  decide +kernel

example : (branching (demoName 'b') (runAll (threeLevels 0 5 9 ++ [.newTrans 0 2 none (.hz 1) none, .newTrans 2 1 none (.hz 3) none,
    .newTrans 0 1 none (.hz 7) none]) (emptyAtom 0 0))).2 = .ok [(demoName 'g', some (1/4)), (demoName 'a', some (3/4))] := by
  decide +kernel

/-- The same atom with rates 0. -/
example : (branching (demoName 'b') (runAll (threeLevels 0 5 9 ++ [.newTrans 0 2 none (.hz 0) none, .newTrans 2 1 none (.hz 0) none,
    .newTrans 0 1 none (.hz 7) none]) (emptyAtom 0 0))).2 = .ok [(demoName 'g', none), (demoName 'a', none)] := by
  decide +kernel

/-! ## C44 -/

/-- The summed A coefficients of the decays, as a property of the list of decays. -/
theorem totalA_eq {w : World} (hr : Reachable w) {key : Str} {i : Nat} (hp : Plain w key) (hl : w.g.lev key = some i)
    (hA : ∀ n t, Decay w key i n t → ∃ a, (w.tr t).A = some a) :
    ∃ l : Dict Str Nat, l.keys.Nodup ∧ (∀ n t, (n, t) ∈ l ↔ Decay w key i n t) ∧
      totalA key w = (w, .ok (l.map (fun p => ((w.tr p.2).A).getD 0)).sum) := by
  obtain ⟨d, l, h1, _, h3, h4, h5⟩ := decays hr hp hl
  refine ⟨l, h4, h5, ?_⟩
  unfold totalA
  rw [PyM.bind_ok h1, PyM.bind_ok (levelsGet_plain hr.wf.gok.nodup hp hl), PyM.bind_ok (show PyM.get w = (w, .ok w) from rfl)]
  simp only [h3]
  have hbuilt : ∀ t ∈ l.map (·.2), (w.tr t).built = true ∧ ∃ a, (w.tr t).A = some a := by
    intro t ht
    obtain ⟨⟨n, t⟩, hm, rfl⟩ := List.mem_map.1 ht
    have := (h5 n t).1 hm
    obtain ⟨a, ha⟩ := hA n t this
    exact ⟨(hr.wf.edge _ _ _ this.2.1).2.1, a, ha⟩
  rw [PyM.bind_ok (show PyM.lift (w.rates .TypeError (l.map (·.2))) w = (w, .ok ((l.map (·.2)).map (fun t => ((w.tr t).A).getD 0))) by
      unfold PyM.lift; rw [rates_ok w _ _ hbuilt])]
  rw [List.map_map]; rfl

theorem lifetime_of_total {w : World} {key : Str} {tot : ℚ} (h : totalA key w = (w, .ok tot)) :
    stateLifetime key w = (w, .ok (if tot = 0 then .inf else .sec (1 / ((tot : ℝ) / (2 * Real.pi))))) := by
  unfold stateLifetime
  rw [PyM.bind_ok h]
  split <;> rfl

/-- C44: the lifetime is infinite exactly when no transition down has a non-zero rate; otherwise it times the sum of the rates
is 2π. -/
theorem C44_lifetime (w : World) (key : Str) (i : Nat) (hr : Reachable w) (hp : Plain w key) (hl : w.g.lev key = some i)
    (hA : ∀ n t, Decay w key i n t → ∃ a, (w.tr t).A = some a ∧ 0 ≤ a) :
    ∃ l : Dict Str Nat, l.keys.Nodup ∧ (∀ n t, (n, t) ∈ l ↔ Decay w key i n t) ∧
    ∃ τ, stateLifetime key w = (w, .ok τ) ∧
      (τ = .inf ↔ ¬∃ n t a, Decay w key i n t ∧ (w.tr t).A = some a ∧ a ≠ 0) ∧
      ∀ x, τ = .sec x → 0 < x ∧ x * (((l.map (fun p => ((w.tr p.2).A).getD 0)).sum : ℚ) : ℝ) = 2 * Real.pi := by
  obtain ⟨l, h1, h2, h3⟩ := totalA_eq hr hp hl (fun n t h => (hA n t h).imp fun _ h => h.1)
  set as := l.map (fun p => ((w.tr p.2).A).getD 0) with has
  have hnn : ∀ a ∈ as, 0 ≤ a := by
    intro a ha
    obtain ⟨⟨n, t⟩, hm, rfl⟩ := List.mem_map.1 ha
    obtain ⟨a, ha, h0⟩ := hA n t ((h2 n t).1 hm)
    simp only [ha, Option.getD_some]; exact h0
  have hsum : as.sum = 0 ↔ ¬∃ n t a, Decay w key i n t ∧ (w.tr t).A = some a ∧ a ≠ 0 := by
    constructor
    · rintro h ⟨n, t, a, hd, ha, hne⟩
      have hm : a ∈ as := List.mem_map.2 ⟨(n, t), (h2 _ _).2 hd, by simp [ha]⟩
      have := List.single_le_sum hnn a hm
      rw [h] at this
      exact hne (le_antisymm this (hnn a hm))
    · intro h
      apply List.sum_eq_zero
      intro a ha
      obtain ⟨⟨n, t⟩, hm, rfl⟩ := List.mem_map.1 ha
      obtain ⟨a, ha, h0⟩ := hA n t ((h2 n t).1 hm)
      by_contra hne
      exact h ⟨n, t, a, (h2 n t).1 hm, ha, by simpa [ha] using hne⟩
  refine ⟨l, h1, h2, _, lifetime_of_total h3, ?_, ?_⟩
  · rw [← hsum]
    by_cases h0 : as.sum = 0 <;> simp [h0]
  · intro x hx
    by_cases h0 : as.sum = 0
    · rw [if_pos h0] at hx; cases hx
    · rw [if_neg h0] at hx
      have hx : 1 / (((as.sum : ℚ) : ℝ) / (2 * Real.pi)) = x := by simpa using hx
      have hpos : (0 : ℝ) < ((as.sum : ℚ) : ℝ) := by
        exact_mod_cast lt_of_le_of_ne (List.sum_nonneg hnn) (Ne.symm h0)
      rw [← hx]
      have := Real.pi_pos
      constructor
      · positivity
      · rw [← has]; field_simp

/-- C44: a missing rate raises `TypeError`. -/
theorem C44_missing (w : World) (key : Str) (i : Nat) (hr : Reachable w) (hp : Plain w key) (hl : w.g.lev key = some i)
    (h : ∃ n t, Decay w key i n t ∧ (w.tr t).A = none) : stateLifetime key w = (w, .error .TypeError) := by
  obtain ⟨d, l, h1, _, h3, h4, h5⟩ := decays hr hp hl
  obtain ⟨n, t, hd, hA⟩ := h
  unfold stateLifetime
  refine PyM.bind_err ?_
  unfold totalA
  rw [PyM.bind_ok h1, PyM.bind_ok (levelsGet_plain hr.wf.gok.nodup hp hl), PyM.bind_ok (show PyM.get w = (w, .ok w) from rfl)]
  simp only [h3]
  refine PyM.bind_err ?_
  unfold PyM.lift
  rw [rates_err w _ _ ?_ ⟨t, List.mem_map.2 ⟨(n, t), (h5 _ _).2 hd, rfl⟩, hA⟩]
  intro t ht
  obtain ⟨⟨n, t⟩, hm, rfl⟩ := List.mem_map.1 ht
  exact (hr.wf.edge _ _ _ ((h5 n t).1 hm).2.1).2.1

/-- Not longer. -/
def Time.le : Time → Time → Prop
  | _, .inf => True
  | .inf, .sec _ => False
  | .sec x, .sec y => x ≤ y

theorem perm_of_mem {l l' : Dict Str Nat} {n : Str} {t : Nat} (hl : l.keys.Nodup) (hl' : l'.keys.Nodup)
    (hn : ∀ t, (n, t) ∉ l) (h : ∀ m u, (m, u) ∈ l' ↔ (m, u) ∈ l ∨ (m = n ∧ u = t)) : List.Perm l' ((n, t) :: l) := by
  have h1 : List.Nodup l := List.Nodup.of_map _ hl
  have h2 : List.Nodup l' := List.Nodup.of_map _ hl'
  refine (List.perm_ext_iff_of_nodup h2 (List.nodup_cons.2 ⟨hn t, h1⟩)).2 ?_
  rintro ⟨m, u⟩
  rw [h, List.mem_cons, Prod.mk.injEq, or_comm]

/-- C44: a new transition down to a level not yet linked never lengthens the lifetime. -/
theorem C44_channel (w w' : World) (key n : Str) (i j : Nat) (f : Option ℚ) (a : ℚ) (ali : Option Str) (t : Nat)
    (hr : Reachable w) (hr' : Reachable w') (hp : Plain w key)
    (hl : w.g.lev key = some i) (hn : w.g.lev n = some j) (hbelow : w.eHz j < w.eHz i) (hnew : w.g.adj key n = none)
    (hA : ∀ n t, Decay w key i n t → ∃ a, (w.tr t).A = some a ∧ 0 ≤ a) (ha : 0 ≤ a)
    (h : World.newTrans i j f (.hz a) ali w = (w', .ok t)) :
    ∃ τ τ', stateLifetime key w = (w, .ok τ) ∧ stateLifetime key w' = (w', .ok τ') ∧ Time.le τ' τ ∧
      (0 < a → τ' ≠ .inf ∧ ∀ x y, τ = .sec x → τ' = .sec y → y < x) := by
  have hJ : (∃ J, (w.lv i).term.J = some J) ∧ ∃ J, (w.lv j).term.J = some J := by
    obtain ⟨g, hobj⟩ := newTransObj_def i j ali w
    unfold World.newTrans at h
    rw [PyM.bind_ok hobj] at h
    set w1 : World := { newTransHeap w i j ali with g := g } with hw1
    have : ∃ al, w1.transAllowed (w1.tr w.ntr).e1 (w1.tr w.ntr).e2 = .ok al := by
      cases hall : w1.transAllowed (w1.tr w.ntr).e1 (w1.tr w.ntr).e2 with
      | ok al => exact ⟨al, rfl⟩
      | error e =>
        have : newTransAttrs w.ntr f (.hz a) w1 = (w1, .error e) := by
          unfold newTransAttrs; simp only [hall]
        rw [PyM.bind_err this] at h
        simp at h
    obtain ⟨al, hal⟩ := this
    have e1 : (w1.tr w.ntr).e1 = i := by simp [hw1, newTransHeap]
    have e2 : (w1.tr w.ntr).e2 = j := by simp [hw1, newTransHeap]
    rw [e1, e2] at hal
    have hlv : w1.lv = w.lv := rfl
    unfold transAllowed at hal
    rw [hlv] at hal
    revert hal
    cases (w.lv i).term.J with
    | none => cases (w.lv j).term.J <;> simp
    | some J0 => cases (w.lv j).term.J with
      | none => simp
      | some J1 => intro _; exact ⟨⟨J0, rfl⟩, ⟨J1, rfl⟩⟩
  obtain ⟨⟨J0, hJ0⟩, ⟨J1, hJ1⟩⟩ := hJ
  have hin := (hr.wf.node _ _ hl).2.1
  have hni := (hr.wf.node _ _ hl).1
  have hnj := (hr.wf.node _ _ hn).1
  rw [newTrans_ok w i j f (.hz a) ali J0 J1 hin hJ0 hJ1 (by intro e; simp)] at h
  simp only [if_neg (not_lt.2 hbelow.le), gt_iff_lt, hni, hnj] at h
  obtain ⟨rfl, _⟩ := Prod.mk.inj h
  set w' : World := { w with
          ntr := w.ntr + 1
          tr := upd w.tr w.ntr (finished w i j f (.hz a) ali J0 J1)
          g := w.g.addEdge n key w.ntr
          talias := withAlias w.talias w.ntr ali } with hw'
  have hne : n ≠ key := by
    rintro rfl
    rw [hl] at hn; simp at hn; subst hn; exact lt_irrefl _ hbelow
  have hlev : ∀ m, w'.g.lev m = w.g.lev m := fun m => Graph.lev_addEdge ..
  have hadj : ∀ m, w'.g.adj key m = if m = n then some w.ntr else w.g.adj key m := by
    intro m
    show (w.g.addEdge n key w.ntr).adj key m = _
    rw [Graph.adj_addEdge]
    by_cases hm : m = n
    · simp [hm]
    · rw [if_neg (by rintro (⟨h, _⟩ | ⟨h, _⟩) <;> simp_all), if_neg hm]
  have hold : ∀ m u, w.g.adj key m = some u → w'.tr u = w.tr u := by
    intro m u hu
    exact upd_ne _ _ _ (by have := (hr.wf.edge _ _ _ hu).1; omega)
  have hnewt : w'.tr w.ntr = finished w i j f (.hz a) ali J0 J1 := upd_same ..
  have hup : (w'.tr w.ntr).upper = i := by rw [hnewt]; simp [finished, not_lt.2 hbelow.le]
  have hAt : (w'.tr w.ntr).A = some a := by rw [hnewt]; rfl
  have hdec : ∀ m u, Decay w' key i m u ↔ Decay w key i m u ∨ (m = n ∧ u = w.ntr) := by
    intro m u
    unfold Decay
    rw [hadj]
    by_cases hm : m = n
    · subst hm
      rw [if_pos rfl, hnew]
      constructor
      · rintro ⟨_, b, _⟩; exact .inr ⟨rfl, by simpa using b.symm⟩
      · rintro (⟨_, b, _⟩ | ⟨_, rfl⟩)
        · cases b
        · exact ⟨hne, rfl, hup⟩
    · rw [if_neg hm]
      constructor
      · rintro ⟨a1, b, c⟩; rw [hold m u b] at c; exact .inl ⟨a1, b, c⟩
      · rintro (⟨a1, b, c⟩ | ⟨b, _⟩)
        · exact ⟨a1, b, by rw [hold m u b]; exact c⟩
        · exact absurd b hm
  have hA' : ∀ m u, Decay w' key i m u → ∃ a, (w'.tr u).A = some a ∧ 0 ≤ a := by
    intro m u hd
    rcases (hdec m u).1 hd with h | ⟨rfl, rfl⟩
    · rw [hold m u h.2.1]; exact hA m u h
    · exact ⟨a, hAt, ha⟩
  have hp' : Plain w' key := hp
  have hl' : w'.g.lev key = some i := by rw [hlev]; exact hl
  obtain ⟨l, h1, h2, h3⟩ := totalA_eq hr hp hl (fun n t h => (hA n t h).imp fun _ h => h.1)
  obtain ⟨l', h1', h2', h3'⟩ := totalA_eq hr' hp' hl' (fun n t h => (hA' n t h).imp fun _ h => h.1)
  have hperm := perm_of_mem (n := n) (t := w.ntr) h1 h1' (fun u hu => by
    have := ((h2 n u).1 hu).2.1; rw [hnew] at this; cases this) (fun m u => by rw [h2', hdec, h2])
  have hsum : (l'.map (fun p => ((w'.tr p.2).A).getD 0)).sum = a + (l.map (fun p => ((w.tr p.2).A).getD 0)).sum := by
    rw [(hperm.map _).sum_eq, List.map_cons, List.sum_cons, hAt]
    congr 2
    refine List.map_congr_left (fun p hpm => ?_)
    rw [hold p.1 p.2 ((h2 _ _).1 hpm).2.1]
  have hnn : 0 ≤ (l.map (fun p => ((w.tr p.2).A).getD 0)).sum := by
    apply List.sum_nonneg
    intro x hx
    obtain ⟨⟨m, u⟩, hm, rfl⟩ := List.mem_map.1 hx
    obtain ⟨b, hb, h0⟩ := hA m u ((h2 m u).1 hm)
    simp only [hb, Option.getD_some]; exact h0
  rw [hsum] at h3'
  refine ⟨_, _, lifetime_of_total h3, lifetime_of_total h3', ?_, ?_⟩
  all_goals generalize (l.map (fun p => ((w.tr p.2).A).getD 0)).sum = s at hnn
  all_goals have hpi := Real.pi_pos
  · by_cases h0 : s = 0
    · rw [if_pos h0]; cases (if a + s = 0 then Time.inf else Time.sec (1 / (((a + s : ℚ) : ℝ) / (2 * Real.pi)))) <;> trivial
    · have hs : 0 < s := lt_of_le_of_ne hnn (Ne.symm h0)
      rw [if_neg h0, if_neg (by linarith)]
      have hs' : (0 : ℝ) < (s : ℝ) := by exact_mod_cast hs
      have ha' : (0 : ℝ) ≤ (a : ℝ) := by exact_mod_cast ha
      show 1 / (((a + s : ℚ) : ℝ) / (2 * Real.pi)) ≤ 1 / ((s : ℝ) / (2 * Real.pi))
      push_cast
      apply one_div_le_one_div_of_le (by positivity)
      gcongr
      linarith
  · intro hapos
    rw [if_neg (by linarith)]
    refine ⟨by simp, fun x y hx hy => ?_⟩
    by_cases h0 : s = 0
    · rw [if_pos h0] at hx; cases hx
    · rw [if_neg h0] at hx
      have hs : 0 < s := lt_of_le_of_ne hnn (Ne.symm h0)
      have hs' : (0 : ℝ) < (s : ℝ) := by exact_mod_cast hs
      have ha' : (0 : ℝ) < (a : ℝ) := by exact_mod_cast hapos
      have hx : 1 / ((s : ℝ) / (2 * Real.pi)) = x := by simpa using hx
      have hy : 1 / (((a + s : ℚ) : ℝ) / (2 * Real.pi)) = y := by simpa using hy
      rw [← hx, ← hy]
      push_cast
      apply one_div_lt_one_div_of_lt (by positivity)
      gcongr
      linarith

example : (totalA (demoName 'b') (runAll (threeLevels 0 5 9 ++ [.newTrans 0 2 none (.hz 1) none, .newTrans 2 1 none (.hz 3) none,
    .newTrans 0 1 none (.hz 7) none]) (emptyAtom 0 0))).2 = .ok 4 := by decide +kernel

/-! ## C48 -/

/-- The full claim for the three documented types. -/
def C48_full : Prop := ∀ w (e1 m1 e2 : Bool), Reachable w →
  let r := populateTransitions [e1, m1, e2] w
  r.2 = .ok () ∧ ∀ i j, i ≠ j → w.Registered i → w.Registered j → ∀ J0 J1, (w.lv i).term.J = some J0 → (w.lv j).term.J = some J1 →
    let al := allowedTypes J0 J1 (w.lv i).term.parity (w.lv j).term.parity false
    ((al.1 = true ∧ e1 = true) ∨ (al.2.1 = true ∧ m1 = true) ∨ (al.2.2 = true ∧ e2 = true) ↔
      r.1.g.adj (r.1.lname i) (r.1.lname j) ≠ none)

theorem transGet_frame (a b : Str) (w : World) : LFrame w (transGet a b w).1 := by
  unfold transGet
  refine PyM.bind_rel LFrame LFrame.trans (levelsGet_frame a) (fun ra w => ?_) w
  refine PyM.bind_rel LFrame LFrame.trans (levelsGet_frame b) (fun rb w => ?_) w
  rw [PyM.bind_ok (show PyM.get w = (w, .ok w) from rfl)]
  cases w.refHz ra with
  | error e => exact LFrame.refl w
  | ok ea =>
    cases w.refHz rb with
    | error e => exact LFrame.refl w
    | ok eb =>
      show LFrame w ((if plainKey a = true then _ else _ : PyM Nat) w).1
      split
      · split <;> exact LFrame.refl w
      · exact LFrame.refl w

theorem checkPairs_frame (l : List (Nat × Nat)) (w : World) : LFrame w (checkPairs l w).1 := by
  induction l generalizing w with
  | nil => exact LFrame.refl w
  | cons p l ih =>
    obtain ⟨a, b⟩ := p
    unfold checkPairs
    exact PyM.bind_rel LFrame LFrame.trans (transGet_frame _ _) (fun _ => ih) w

/-- C48: nothing is ever added: levels, transitions, the graph and the aliases are as before, whatever the flags. -/
theorem C48_never (allowed : List Bool) (w : World) :
    let w' := (populateTransitions allowed w).1
    w'.g = w.g ∧ w'.tr = w.tr ∧ w'.ntr = w.ntr ∧ w'.talias = w.talias := by
  have : LFrame w (populateTransitions allowed w).1 := by
    unfold populateTransitions
    split
    · exact LFrame.refl w
    · exact checkPairs_frame _ w
  exact ⟨this.g, this.tr, this.ntr, this.talias⟩

theorem checkPairs_ok (l : List (Nat × Nat)) (w : World) (hpl : ∀ p ∈ l, plainKey (w.lname p.1) = true ∧ plainKey (w.lname p.2) = true)
    (h : (checkPairs l w).2 = .ok ()) : ∀ p ∈ l, ∃ t, transGet (w.lname p.1) (w.lname p.2) w = (w, .ok t) := by
  induction l with
  | nil => simp
  | cons p l ih =>
    obtain ⟨a, b⟩ := p
    have h1 := hpl (a, b) (by simp)
    have hfst := transGet_fst (w := w) h1.1 h1.2
    unfold checkPairs at h
    rcases hg : transGet (w.lname a) (w.lname b) w with ⟨w1, r⟩
    rw [hg] at hfst
    subst hfst
    cases r with
    | error e => rw [PyM.bind_err hg] at h; simp at h
    | ok t =>
      rw [PyM.bind_ok hg] at h
      intro p hp
      rcases List.mem_cons.1 hp with rfl | hp
      · exact ⟨t, hg⟩
      · exact ih (fun p hp => hpl p (by simp [hp])) h p hp

/-- The differences of J looked at: 0 and 1 for E1 or M1, 2 for M1 or E2. -/
def LookedAt (e1 m1 e2 : Bool) (δ : Nat) : Prop :=
  ((δ = 0 ∨ δ = 1) ∧ (e1 = true ∨ m1 = true)) ∨ (δ = 2 ∧ (m1 = true ∨ e2 = true))

theorem allowedDeltas_three (e1 m1 e2 : Bool) : ∃ ds, allowedDeltas [e1, m1, e2] (List.range 3) = .ok ds ∧
    ∀ δ, δ ∈ ds ↔ LookedAt e1 m1 e2 δ := by
  have key : ∀ e1 m1 e2 : Bool, allowedDeltas [e1, m1, e2] (List.range 3) =
      .ok ((if e1 || m1 then [0, 1] else []) ++ (if m1 || e2 then [2] else [])) := by decide +kernel
  refine ⟨_, key e1 m1 e2, fun δ => ?_⟩
  cases e1 <;> cases m1 <;> cases e2 <;> simp [LookedAt, or_assoc]

/-- C48: with no type allowed nothing is looked at. -/
theorem C48_none (w : World) : populateTransitions [false, false, false] w = (w, .ok ()) := by
  have : allowedDeltas [false, false, false] (List.range 3) = .ok [] := by decide +kernel
  unfold populateTransitions
  simp only [List.length_cons, List.length_nil, this]
  rfl

/-- C48: it returns normally only if there is nothing to add: every two levels whose J differ by one of the differences
looked at are already connected — for the difference 0 every level to itself included.  (The J of the lower one is in the
grid 0, 1/2, …, without the last 2δ+1 values.) -/
theorem C48_returns_partial (e1 m1 e2 : Bool) (w : World) (hr : Reachable w)
    (hpl : ∀ i, w.Registered i → plainKey (w.lname i) = true)
    (h : (populateTransitions [e1, m1, e2] w).2 = .ok ()) (i j δ : Nat) (hδ : LookedAt e1 m1 e2 δ)
    (hi : w.Registered i) (hj : w.Registered j) (J : ℚ)
    (hJ : J ∈ jGrid.take (41 - 2 * δ)) (hJi : (w.lv i).term.J = some J) (hJj : (w.lv j).term.J = some (J + δ)) :
    w.g.adj (w.lname i) (w.lname j) ≠ none := by
  have hn := hr.wf.gok.nodup
  have hvals : ∀ k, k ∈ w.g.levelAttrs.vals ↔ w.Registered k := by
    intro k
    constructor
    · intro hk
      obtain ⟨p, hp, rfl⟩ := List.mem_map.1 hk
      have h1 : w.g.levelAttrs.get? p.1 = some p.2 :=
        Dict.get?_of_mem (by rw [Graph.keys_levelAttrs _ hn]; exact hn.filter _) hp
      rw [Graph.get?_levelAttrs _ hn] at h1
      show w.g.lev (w.lname p.2) = some p.2
      rw [(hr.wf.node _ _ h1).1, h1]
    · intro hk
      exact List.mem_map.2 ⟨(w.lname k, k), Dict.mem_of_get? ((Graph.get?_levelAttrs _ hn _).trans hk), rfl⟩
  obtain ⟨ds, hds, hmemds⟩ := allowedDeltas_three e1 m1 e2
  unfold populateTransitions at h
  simp only [List.length_cons, List.length_nil, hds] at h
  have hmem : ∀ δ, ∀ p ∈ w.levelPairs δ, w.Registered p.1 ∧ w.Registered p.2 := by
    rintro δ ⟨a, b⟩ hp
    unfold levelPairs product withJ at hp
    simp only [List.mem_flatMap, List.mem_map, List.mem_filter] at hp
    obtain ⟨j, _, x, ⟨hx, _⟩, y, ⟨hy, _⟩, he⟩ := hp
    obtain ⟨rfl, rfl⟩ := Prod.mk.inj he
    exact ⟨(hvals _).1 hx, (hvals _).1 hy⟩
  obtain ⟨t, ht⟩ := checkPairs_ok _ w (fun p hp => by
    obtain ⟨δ, _, hp⟩ := List.mem_flatMap.1 hp
    obtain ⟨h1, h2⟩ := hmem δ p hp
    exact ⟨hpl _ h1, hpl _ h2⟩) h (i, j) (by
    rw [List.mem_flatMap]
    refine ⟨δ, (hmemds δ).2 hδ, ?_⟩
    unfold levelPairs product withJ
    rw [List.mem_flatMap]
    refine ⟨J, by
      have e : jGrid.length = 42 := by decide +kernel
      rw [e, show 42 - (2 * δ + 1) = 41 - 2 * δ by omega]; exact hJ, ?_⟩
    rw [List.mem_flatMap]
    refine ⟨i, List.mem_filter.2 ⟨(hvals _).2 hi, by simp [hJi]⟩, List.mem_map.2 ⟨j, List.mem_filter.2 ⟨(hvals _).2 hj, by simp [hJj]⟩, rfl⟩⟩)
  intro hnone
  rcases C29_connects w w (w.lname i) (w.lname j) t hr (hpl _ hi) (hpl _ hj) ht with _ | _
  all_goals
    rw [transGet_plainKey (hpl _ hi) (hpl _ hj)] at ht
    have h2 := (Prod.mk.inj ht).2
    cases h1 : (levelsGet (w.lname i) w).2 with
    | error e => rw [h1] at h2; simp [bind, Except.bind] at h2
    | ok ra =>
      cases h3 : (levelsGet (w.lname j) w).2 with
      | error e => rw [h1, h3] at h2; simp [bind, Except.bind] at h2
      | ok rb =>
        cases h4 : w.refHz ra with
        | error e => rw [h1, h3] at h2; simp [bind, Except.bind, h4] at h2
        | ok ea =>
          cases h5 : w.refHz rb with
          | error e => rw [h1, h3] at h2; simp [bind, Except.bind, h4, h5] at h2
          | ok eb =>
            rw [h1, h3] at h2
            simp only [bind, Except.bind, h4, h5] at h2
            split at h2
            · rw [Dict.getE_ok, Graph.get?_edges hr.wf.gok, hr.wf.gok.symm, hnone] at h2
              simp at h2
            · rw [Dict.getE_ok, Graph.get?_edges hr.wf.gok, hnone] at h2
              simp at h2

theorem checkPairs_all (l : List (Nat × Nat)) (w : World)
    (h : ∀ p ∈ l, ∃ t, transGet (w.lname p.1) (w.lname p.2) w = (w, .ok t)) : checkPairs l w = (w, .ok ()) := by
  induction l with
  | nil => rfl
  | cons p l ih =>
    obtain ⟨a, b⟩ := p
    obtain ⟨t, ht⟩ := h (a, b) (by simp)
    unfold checkPairs
    rw [PyM.bind_ok ht]
    exact ih (fun p hp => h p (by simp [hp]))

/-- C48: only pairs of registered levels whose J differ by one of the differences looked at can make it raise: if
`atom.transitions[…]` finds a transition for each of those, it returns normally. -/
theorem C48_quiet_partial (e1 m1 e2 : Bool) (w : World) (hr : Reachable w)
    (h : ∀ i j δ J, LookedAt e1 m1 e2 δ → w.Registered i → w.Registered j → (w.lv i).term.J = some J →
      (w.lv j).term.J = some (J + (δ : ℚ)) → ∃ t, transGet (w.lname i) (w.lname j) w = (w, .ok t)) :
    populateTransitions [e1, m1, e2] w = (w, .ok ()) := by
  have hn := hr.wf.gok.nodup
  obtain ⟨ds, hds, hmemds⟩ := allowedDeltas_three e1 m1 e2
  unfold populateTransitions
  simp only [List.length_cons, List.length_nil, hds]
  refine checkPairs_all _ _ ?_
  have hvals : ∀ k, k ∈ w.g.levelAttrs.vals → w.Registered k := by
    intro k hk
    obtain ⟨p, hp, rfl⟩ := List.mem_map.1 hk
    have h1 : w.g.levelAttrs.get? p.1 = some p.2 :=
      Dict.get?_of_mem (by rw [Graph.keys_levelAttrs _ hn]; exact hn.filter _) hp
    rw [Graph.get?_levelAttrs _ hn] at h1
    show w.g.lev (w.lname p.2) = some p.2
    rw [(hr.wf.node _ _ h1).1, h1]
  rintro ⟨a, b⟩ hp
  obtain ⟨δ, hδ, hp⟩ := List.mem_flatMap.1 hp
  unfold levelPairs product withJ at hp
  simp only [List.mem_flatMap, List.mem_map, List.mem_filter, decide_eq_true_eq] at hp
  obtain ⟨J, _, x, ⟨hx, hxJ⟩, y, ⟨hy, hyJ⟩, he⟩ := hp
  obtain ⟨rfl, rfl⟩ := Prod.mk.inj he
  exact h x y δ J ((hmemds δ).1 hδ) (hvals _ hx) (hvals _ hy) hxJ hyJ

/-- The hypothesis of `C48_quiet_partial`, with a pair that is looked at. -/
example : let w := runAll [.newLevel (demoTerm 'g') 0 0 0 0 0 none, .addLevel 0 false none, .newTrans 0 0 none .none none] (emptyAtom 0 0)
    Reachable w ∧ w.Registered 0 ∧ (w.lv 0).term.J = some (1/2) ∧ transGet (w.lname 0) (w.lname 0) w = (w, .ok 0) :=
  ⟨demo_reachable (by decide +kernel), by unfold Registered; decide +kernel, by decide +kernel, by
    rw [C29_found_partial _ _ _ 0 0 0 (demo_reachable (by decide +kernel)) (by decide +kernel) (by decide +kernel) (by decide +kernel)
      (by decide +kernel) (by decide +kernel)]
    decide +kernel⟩

theorem C48_fails : ¬C48_full := by
  intro h
  let ops := threeLevels 0 5 9
  have := (h (runAll ops (emptyAtom 0 0)) true true true (demo_reachable (by decide +kernel))).1
  revert this
  decide +kernel

/-- An atom on which it does return normally: one level with its internal transition. -/
example : (populateTransitions [true, true, true] (runAll [.newLevel (demoTerm 'g') 0 0 0 0 0 none, .addLevel 0 false none,
    .newTrans 0 0 none .none none] (emptyAtom 0 0))).2 = .ok () := by decide +kernel

end AtomTk
