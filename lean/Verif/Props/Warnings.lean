import Verif.Props.TransList
import Verif.Props.Retune

/-!
# C160: what the warnings of enforce_consistency say

The docstring of `enforce_consistency` (atom.py:1122-1128) says that it warns on loops.  Here: how many warnings one call can give, what a call on pinned
levels reports, and where the warnings and the frequencies that are not met part ways.
-/

namespace AtomTk
open Util World

/-! ## The specification -/

/-- The transitions of the atom that have a set frequency. -/
def setTrans (w : World) : List Nat := w.transVals.filter (fun t => (w.tr t).setFreq.isSome)

/-- The set frequency of a transition is not the distance of its levels. -/
def unmet (w : World) (t : Nat) : Bool := decide ((w.tr t).setFreq ≠ some (w.freqHz t))

/-- How many set frequencies of the atom are not met. -/
def unmetCount (w : World) : Nat := (setTrans w).countP (unmet w)

/-! ## The edges that one call visits -/

/-- The steps of a search lead to levels not seen before. -/
theorem Graph.Grow.fresh {nb : Str → List Str} {vis : List Str} {out : List (Str × Str)} (h : Graph.Grow nb vis out) :
    out.Pairwise (fun e e' => e'.2 ≠ e.1 ∧ e'.2 ≠ e.2) := by
  induction h with
  | nil => exact .nil
  | @cons vis p c out h1 h2 h3 h4 ih =>
    refine List.pairwise_cons.2 ⟨?_, ih⟩
    intro e he
    have := h4.nodup.2 e.2 (List.mem_map_of_mem he)
    simp only [List.mem_cons, not_or] at this
    refine ⟨fun k => this.2 (by rw [k]; exact h1), this.1⟩

/-- One of the two orders of a pair is in the list. -/
def Joined (l : List (Str × Str)) (a b : Str) : Prop := (a, b) ∈ l ∨ (b, a) ∈ l

theorem Joined.conn_symm {l : List (Str × Str)} {a b : Str} (h : Relation.ReflTransGen (Joined l) a b) : Relation.ReflTransGen (Joined l) b a := by
  induction h with
  | refl => exact .refl
  | tail _ hbc ih => exact .head hbc.symm ih

theorem Joined.conn_mono {l l' : List (Str × Str)} (hl : ∀ e ∈ l, e ∈ l') {a b : Str} (h : Relation.ReflTransGen (Joined l) a b) :
    Relation.ReflTransGen (Joined l') a b := by
  induction h with
  | refl => exact .refl
  | tail _ hbc ih => exact ih.tail (hbc.imp (hl _) (hl _))

/-- What a search reaches it reaches through its steps. -/
theorem Graph.Grow.joined {nb : Str → List Str} {vis : List Str} {out : List (Str × Str)} (h : Graph.Grow nb vis out) :
    ∀ v ∈ out.map Prod.snd, ∃ u ∈ vis, Relation.ReflTransGen (Joined out) u v := by
  induction h with
  | nil => simp
  | @cons vis p c out h1 h2 h3 h4 ih =>
    intro v hv
    have hm : ∀ e ∈ out, e ∈ (p, c) :: out := fun e he => by simp [he]
    have hpc : Joined ((p, c) :: out) p c := .inl (by simp)
    simp only [List.map_cons, List.mem_cons] at hv
    rcases hv with rfl | hv
    · exact ⟨p, h1, .single hpc⟩
    · obtain ⟨u, hu, hr⟩ := ih v hv
      rcases List.mem_cons.1 hu with rfl | hu
      · exact ⟨p, h1, .head hpc (Joined.conn_mono hm hr)⟩
      · exact ⟨u, hu, Joined.conn_mono hm hr⟩

/-- The steps stay inside what is closed. -/
theorem Graph.Grow.inside {nb : Str → List Str} {vis : List Str} {out : List (Str × Str)} (h : Graph.Grow nb vis out) (X : Str → Prop)
    (hX : ∀ n m, X n → m ∈ nb n → X m) (hv : ∀ n ∈ vis, X n) : ∀ e ∈ out, X e.1 ∧ X e.2 ∧ e.2 ∈ nb e.1 ∧ e.1 ≠ e.2 := by
  induction h with
  | nil => simp
  | @cons vis p c out h1 h2 h3 h4 ih =>
    have hc := hX p c (hv p h1) h3
    intro e he
    rcases List.mem_cons.1 he with rfl | he
    · exact ⟨hv _ h1, hc, h3, by rintro k; exact h2 (by rw [← show p = c from k]; exact h1)⟩
    · refine ih ?_ e he
      intro n hn
      rcases List.mem_cons.1 hn with rfl | hn
      · exact hc
      · exact hv n hn

theorem enfEdges_app (l l' : List (Str × Str)) (w w1 : World) (h : enfEdges l w = (w1, .ok ())) : enfEdges (l ++ l') w = enfEdges l' w1 := by
  induction l generalizing w with
  | nil =>
    simp only [enfEdges, pure] at h
    cases h
    rfl
  | cons e l ih =>
    obtain ⟨u, v⟩ := e
    simp only [List.cons_append, enfEdges] at h ⊢
    cases he : enfEdge u v w with
    | mk w2 r =>
      cases r with
      | error x => rw [PyM.bind_err he] at h; cases h
      | ok x => rw [PyM.bind_ok he] at h ⊢; exact ih w2 h

/-- The edges that the components of the list visit: one list, in which every edge is a set transition and leads to a level that no earlier edge
touches; and through which the levels of each component are connected. -/
theorem enfComps_edges {σ : Ord'} (hσ : Shuffles σ) {es : List (Str × Str)} (trig : Option (Str × Str)) :
    ∀ (cs : List (List Str)) (w : World), WF w → EsOk w es → (∀ c ∈ cs, IsComp w c) → cs.Pairwise (fun c d => ∀ x ∈ c, x ∉ d) →
      ∃ l, enfComps σ es trig cs w = enfEdges l w ∧
        (∀ e ∈ l, (∃ t f, SetEdge w e.1 e.2 t f) ∧ e.1 ≠ e.2 ∧ ∃ c ∈ cs, e.1 ∈ c ∧ e.2 ∈ c) ∧
        l.Pairwise (fun e e' => e'.2 ≠ e.1 ∧ e'.2 ≠ e.2) ∧
        ∀ c ∈ cs, triggered w.g es c trig = true → ∀ a ∈ c, ∀ b ∈ c, Relation.ReflTransGen (Joined l) a b := by
  intro cs
  induction cs with
  | nil => intro w _ _ _ _; exact ⟨[], rfl, by simp, .nil, by simp⟩
  | cons c cs ih =>
    intro w hw hes hcomp hpw
    rw [List.pairwise_cons] at hpw
    by_cases ht : triggered w.g es c trig = true
    · have hcc := hcomp c (by simp)
      obtain ⟨s, is, out, h1, h2, h3, h4, h5, h6⟩ := enfComp_search hw hes hσ hcc
      obtain ⟨w1, k1, k2, k3⟩ := enfComp_frame' hw hes hσ hcc
      obtain ⟨l, i1, i2, i3, i4⟩ := ih w1 (hw.frame k2.frame) (k2.esOk hes)
        (fun d hd => (k2.isComp d).2 (hcomp d (by simp [hd]))) hpw.2
      have hin := h4.inside (· ∈ c) (fun n m hn hm => by
        obtain ⟨t, f, h⟩ := (mem_subNbrs hw hes n m).1 hm
        exact hcc.closed hn h) (by intro n hn; simp only [List.mem_singleton] at hn; rw [hn]; exact h1)
      have hjoin : ∀ a ∈ c, Relation.ReflTransGen (Joined out) s a := by
        intro a ha
        rcases h5 a ha with rfl | h
        · exact .refl
        · obtain ⟨u, hu, hr⟩ := h4.joined a h
          simp only [List.mem_singleton] at hu
          rw [← hu]; exact hr
      refine ⟨out ++ l, ?_, ?_, ?_, ?_⟩
      · unfold enfComps
        rw [if_pos ht, PyM.bind_ok k1, i1]
        rw [h6] at k1
        exact (enfEdges_app out l w w1 k1).symm
      · intro e he
        rcases List.mem_append.1 he with he | he
        · obtain ⟨q1, q2, q3, q4⟩ := hin e he
          exact ⟨(mem_subNbrs hw hes _ _).1 q3, q4, c, by simp, q1, q2⟩
        · obtain ⟨⟨t, f, q⟩, q4, d, hd, q1, q2⟩ := i2 e he
          exact ⟨⟨t, f, (k2.setEdge _ _ _ _).1 q⟩, q4, d, by simp [hd], q1, q2⟩
      · rw [List.pairwise_append]
        refine ⟨h4.fresh, i3, ?_⟩
        intro e he e' he'
        obtain ⟨q1, q2, _⟩ := hin e he
        obtain ⟨_, _, d, hd, q3, q4⟩ := i2 e' he'
        exact ⟨fun k => hpw.1 d hd _ q1 (k ▸ q4), fun k => hpw.1 d hd _ q2 (k ▸ q4)⟩
      · intro d hd htd a ha b hb
        rcases List.mem_cons.1 hd with rfl | hd
        · exact Joined.conn_mono (fun e he => List.mem_append.2 (.inl he)) ((Joined.conn_symm (hjoin a ha)).trans (hjoin b hb))
        · exact Joined.conn_mono (fun e he => List.mem_append.2 (.inr he)) (i4 d hd (by rw [k2.g]; exact htd) a ha b hb)
    · obtain ⟨l, i1, i2, i3, i4⟩ := ih w hw hes (fun d hd => hcomp d (by simp [hd])) hpw.2
      refine ⟨l, ?_, ?_, i3, ?_⟩
      · unfold enfComps
        rw [if_neg ht, i1]
      · intro e he
        obtain ⟨q, q2, d, hd, q1⟩ := i2 e he
        exact ⟨q, q2, d, by simp [hd], q1⟩
      · intro d hd htd
        rcases List.mem_cons.1 hd with rfl | hd
        · exact absurd htd ht
        · exact i4 d hd htd

/-- One call of `enforce_consistency` visits a list of set transitions, each at most once. -/
theorem enforce_edges {w : World} (hw : WF w) {σ : Ord'} (hσ : Shuffles σ) (trig : Option (Str × Str)) :
    ∃ l, enforce σ trig w = enfEdges l w ∧ (∀ e ∈ l, ∃ t f, SetEdge w e.1 e.2 t f) ∧ (∀ e ∈ l, e.1 ≠ e.2) ∧
      l.Pairwise (fun e e' => e'.2 ≠ e.1 ∧ e'.2 ≠ e.2) ∧
      (trig = none → ∀ n m t f, SetEdge w n m t f → Relation.ReflTransGen (Joined l) n m) := by
  obtain ⟨es, cs, hes, h1, h2, h3, h4⟩ := enforce_comps hw hσ trig
  obtain ⟨l, i1, i2, i3, i4⟩ := enfComps_edges hσ trig cs w hw hes h2 h3
  refine ⟨l, h1.trans i1, fun e he => (i2 e he).1, fun e he => (i2 e he).2.1, i3, ?_⟩
  rintro rfl n m t f he
  obtain ⟨c, hc, hn⟩ := h4 n m t f he
  exact i4 c hc rfl n hn m ((h2 c hc).closed hn he)

/-- The transition of an edge. -/
def trAt (w : World) (e : Str × Str) : Nat := (w.g.adj e.1 e.2).getD 0

theorem trAt_eq {w : World} {a b : Str} {t : Nat} {f : ℚ} (h : SetEdge w a b t f) : trAt w (a, b) = t := by
  unfold trAt; rw [h.1]; rfl

/-- The same transition joins the same two levels. -/
theorem setEdge_pair {w : World} (hw : WF w) {a b c d : Str} {t : Nat} {f g : ℚ} (h : SetEdge w a b t f) (h' : SetEdge w c d t g) :
    (a = c ∧ b = d) ∨ (a = d ∧ b = c) := by
  obtain ⟨_, _, _, _, k, _⟩ := hw.edge _ _ _ h.1
  obtain ⟨_, _, _, _, k', _⟩ := hw.edge _ _ _ h'.1
  rcases k with ⟨e1, e2⟩ | ⟨e1, e2⟩ <;> rcases k' with ⟨e3, e4⟩ | ⟨e3, e4⟩ <;> rw [e1, e2, e3, e4] <;> tauto

theorem edges_nodup {w : World} (hw : WF w) {l : List (Str × Str)} (h1 : ∀ e ∈ l, ∃ t f, SetEdge w e.1 e.2 t f)
    (h2 : l.Pairwise (fun e e' => e'.2 ≠ e.1 ∧ e'.2 ≠ e.2)) : (l.map (trAt w)).Nodup := by
  rw [List.Nodup, List.pairwise_map]
  refine h2.imp_of_mem ?_
  rintro ⟨a, b⟩ ⟨c, d⟩ ha hc ⟨q1, q2⟩ heq
  obtain ⟨t, f, he⟩ := h1 _ ha
  obtain ⟨t', f', he'⟩ := h1 _ hc
  rw [trAt_eq he, trAt_eq he'] at heq
  subst heq
  rcases setEdge_pair hw he he' with ⟨rfl, rfl⟩ | ⟨rfl, rfl⟩
  · exact q2 rfl
  · exact q1 rfl

theorem mem_setTrans {w : World} (hw : WF w) (t : Nat) : t ∈ setTrans w ↔ ∃ a b f, SetEdge w a b t f := by
  unfold setTrans transVals Dict.vals
  simp only [List.mem_filter, List.mem_map]
  constructor
  · rintro ⟨⟨⟨⟨a, b⟩, t'⟩, h1, rfl⟩, h2⟩
    obtain ⟨f, hf⟩ := Option.isSome_iff_exists.1 h2
    exact ⟨a, b, f, ((Graph.mem_edges hw.gok _ _ _).1 h1).1, hf⟩
  · rintro ⟨a, b, f, h1, h2⟩
    refine ⟨?_, by rw [h2]; rfl⟩
    rcases Graph.before_total w.g a b with hb | hb
    · exact ⟨((a, b), t), (Graph.mem_edges hw.gok _ _ _).2 ⟨h1, hb⟩, rfl⟩
    · exact ⟨((b, a), t), (Graph.mem_edges hw.gok _ _ _).2 ⟨by rw [hw.gok.symm]; exact h1, hb⟩, rfl⟩

theorem edges_sub {w : World} (hw : WF w) {l : List (Str × Str)} (h1 : ∀ e ∈ l, ∃ t f, SetEdge w e.1 e.2 t f) :
    ∀ t ∈ l.map (trAt w), t ∈ setTrans w := by
  intro t ht
  obtain ⟨⟨a, b⟩, he, rfl⟩ := List.mem_map.1 ht
  obtain ⟨t, f, h⟩ := h1 _ he
  rw [trAt_eq h]
  exact (mem_setTrans hw t).2 ⟨a, b, f, h⟩

theorem setTrans_nodup {w : World} (hr : Reachable w) : (setTrans w).Nodup := (C81_listing w hr).2.1.filter _

/-! ## How many warnings -/

theorem enfEdges_warned {w0 : World} (l : List (Str × Str)) : ∀ (w : World), EFrame w0 w → (∀ e ∈ l, ∃ t f, SetEdge w0 e.1 e.2 t f) →
    ∃ w', enfEdges l w = (w', .ok ()) ∧ w.warned ≤ w'.warned ∧ w'.warned ≤ w.warned + l.length := by
  induction l with
  | nil => intro w _ _; exact ⟨w, rfl, le_refl _, by simp⟩
  | cons e l ih =>
    intro w hf hl
    obtain ⟨u, v⟩ := e
    obtain ⟨t, f, he⟩ := hl _ (List.mem_cons_self ..)
    have he' : SetEdge w u v t f := (hf.setEdge _ _ _ _).2 he
    obtain ⟨w', h1, h2, h3⟩ := ih (enfStep w (w.tr t).lower (w.tr t).upper f) (hf.trans _ _ _ (enfStep_eframe w _ _ f))
      (fun e he => hl e (by simp [he]))
    rw [warned_enfStep] at h2 h3
    refine ⟨w', ?_, ?_, ?_⟩
    · unfold enfEdges
      rw [PyM.bind_ok (enfEdge_eq he')]
      exact h1
    · split at h2 <;> omega
    · simp only [List.length_cons]
      split at h3 <;> omega

/-- C160: one call of `enforce_consistency` gives at most one warning for each set transition, in every atom, with loops or without. -/
theorem C160_bound {w : World} (hr : Reachable w) {σ : Ord'} (hσ : Shuffles σ) (trig : Option (Str × Str)) :
    ∃ w', enforce σ trig w = (w', .ok ()) ∧ w.warned ≤ w'.warned ∧ w'.warned ≤ w.warned + (setTrans w).length := by
  obtain ⟨l, h1, h2, _, h3, _⟩ := enforce_edges hr.wf hσ trig
  obtain ⟨w', k1, k2, k3⟩ := enfEdges_warned l w (EFrame.refl w) h2
  refine ⟨w', h1.trans k1, k2, le_trans k3 ?_⟩
  have := (List.subperm_of_subset (edges_nodup hr.wf h2 h3) (edges_sub hr.wf h2)).length_le
  rw [List.length_map] at this
  omega

/-! ## Pinned levels -/

/-- The set frequencies in `w`, all between pinned levels, none of them realised upside down. -/
structure PinnedSet (w : World) : Prop where
  pinned : ∀ n m t f, SetEdge w n m t f → (w.lv (w.tr t).lower).fixed = true ∧ (w.lv (w.tr t).upper).fixed = true
  upright : ∀ n m t f, SetEdge w n m t f → ¬(0 < f ∧ w.eHz (w.tr t).lower - w.eHz (w.tr t).upper = f)

theorem upd_id {α : Type _} (h : Nat → α) (i : Nat) {a : α} (e : a = h i) : upd h i a = h := by
  funext k
  by_cases hk : k = i
  · subst hk; rw [upd_same, e]
  · rw [upd_ne _ _ _ hk]

theorem setFixed_id (w : World) {i : Nat} (h : (w.lv i).fixed = true) : w.setFixed i true = w := by
  unfold World.setFixed World.setLv
  rw [upd_id w.lv i (by cases hc : w.lv i; rw [hc] at h; simp only at h; rw [h])]

theorem setE_id (w : World) {i : Nat} {e : ℚ} (h : e = w.eHz i) : w.setE i e = w := by
  unfold World.setE World.setLv
  rw [upd_id w.lv i (by rw [h]; rfl)]

theorem enfStep_pinned (w : World) {l up : Nat} {f : ℚ} (hl : (w.lv l).fixed = true) (hu : (w.lv up).fixed = true)
    (hm : ¬(0 < f ∧ w.eHz l - w.eHz up = f)) :
    enfStep w l up f = { w with warned := w.warned + if f ≠ |w.eHz l - w.eHz up| then 1 else 0 } := by
  unfold enfStep
  by_cases h : f ≠ |w.eHz l - w.eHz up|
  · have q1 : ({ w with warned := w.warned + 1 } : World).setFixed up true = { w with warned := w.warned + 1 } := setFixed_id _ hu
    have q2 : ({ w with warned := w.warned + 1 } : World).setFixed l true = { w with warned := w.warned + 1 } := setFixed_id _ hl
    rw [if_pos ⟨hl, hu, h⟩, if_pos h, q1, q2]
  · have hE : w.eHz up - f = w.eHz l := by
      rw [not_not] at h
      rcases abs_cases (w.eHz l - w.eHz up) with ⟨q, q'⟩ | ⟨q, q'⟩
      · rcases q'.lt_or_eq with q' | q'
        · exact absurd ⟨by linarith, by linarith⟩ hm
        · linarith
      · linarith
    rw [if_neg (fun k => h k.2.2), if_pos hu, if_neg h, setE_id _ hE, setFixed_id _ hu, setFixed_id _ hl]
    rfl

theorem unmet_iff {w : World} (hw : WF w) {a b : Str} {t : Nat} {f : ℚ} (he : SetEdge w a b t f) :
    unmet w t = true ↔ f ≠ |w.eHz (w.tr t).lower - w.eHz (w.tr t).upper| := by
  obtain ⟨_, _, _, _, _, k⟩ := hw.edge _ _ _ he.1
  have : w.freqHz t = |w.eHz (w.tr t).lower - w.eHz (w.tr t).upper| := by
    unfold World.freqHz
    rcases k with ⟨e1, e2⟩ | ⟨e1, e2⟩
    · rw [e1, e2]
    · rw [e1, e2, abs_sub_comm]
  unfold unmet
  rw [decide_eq_true_iff, he.2, this, Ne, Option.some.injEq]

theorem enfEdges_pinned {w : World} (hw : WF w) (hp : PinnedSet w) (l : List (Str × Str)) (hl : ∀ e ∈ l, ∃ t f, SetEdge w e.1 e.2 t f) (n : Nat) :
    enfEdges l { w with warned := n } = ({ w with warned := n + (l.map (trAt w)).countP (unmet w) }, .ok ()) := by
  induction l generalizing n with
  | nil => rfl
  | cons e l ih =>
    obtain ⟨u, v⟩ := e
    obtain ⟨t, f, he⟩ := hl _ (List.mem_cons_self ..)
    have he' : SetEdge { w with warned := n } u v t f := he
    unfold enfEdges
    rw [PyM.bind_ok (enfEdge_eq he')]
    rw [enfStep_pinned { w with warned := n } (hp.pinned _ _ _ _ he).1 (hp.pinned _ _ _ _ he).2 (hp.upright _ _ _ _ he)]
    show enfEdges l { w with warned := n + if f ≠ |w.eHz (w.tr t).lower - w.eHz (w.tr t).upper| then 1 else 0 } = _
    rw [ih (fun e he => hl e (by simp [he]))]
    rw [List.map_cons, trAt_eq he, List.countP_cons]
    simp only [unmet_iff hw he]
    have : ∀ a b : Nat, n + a + b = n + (b + a) := fun a b => by omega
    rw [this]

/-- In an atom without loops one call visits every set transition. -/
theorem edges_all {w : World} (hr : Reachable w) (htree : LoopFree w (fun _ => True)) {l : List (Str × Str)}
    (h1 : ∀ e ∈ l, ∃ t f, SetEdge w e.1 e.2 t f)
    (h2 : ∀ n m t f, SetEdge w n m t f → Relation.ReflTransGen (Joined l) n m) : ∀ t ∈ setTrans w, t ∈ l.map (trAt w) := by
  have hw := hr.wf
  intro t ht
  obtain ⟨a, b, f, he⟩ := (mem_setTrans hw t).1 ht
  by_contra hno
  refine htree.connOff hw (fun _ _ _ _ _ _ => trivial) he trivial ?_
  have hc := h2 a b t f he
  refine Relation.ReflTransGen.mono ?_ _ _ hc
  rintro x y (hxy | hxy)
  · obtain ⟨t', f', k⟩ := h1 _ hxy
    refine ⟨t', f', ?_, k⟩
    rintro rfl
    exact hno (List.mem_map.2 ⟨(x, y), hxy, trAt_eq k⟩)
  · obtain ⟨t', f', k⟩ := h1 _ hxy
    refine ⟨t', f', ?_, k.symm hw⟩
    rintro rfl
    exact hno (List.mem_map.2 ⟨(y, x), hxy, trAt_eq k⟩)

/-- C160 (what holds): in an atom whose set transitions form no loop, join pinned levels, and are not realised upside down, a call of
`enforce_consistency` changes nothing and warns exactly once for every set frequency that is not met.  Missing: levels that are not pinned, loops,
transitions upside down; see `C160_fails`. -/
theorem C160_check_partial {w : World} (hr : Reachable w) {σ : Ord'} (hσ : Shuffles σ) (htree : LoopFree w (fun _ => True)) (hp : PinnedSet w) :
    enforce σ none w = ({ w with warned := w.warned + unmetCount w }, .ok ()) := by
  obtain ⟨l, h1, h2, _, h3, h4⟩ := enforce_edges hr.wf hσ none
  have hperm : (l.map (trAt w)).Perm (setTrans w) :=
    (List.perm_ext_iff_of_nodup (edges_nodup hr.wf h2 h3) (setTrans_nodup hr)).2
      (fun t => ⟨edges_sub hr.wf h2 t, edges_all hr htree h2 (h4 rfl) t⟩)
  rw [h1]
  have := enfEdges_pinned hr.wf hp l h2 w.warned
  rw [hperm.countP_eq] at this
  exact this

/-- C160: without a loop condition the warnings are at least no false ones: on pinned upright levels nothing moves, and there are at most as many warnings as
set frequencies that are not met. -/
theorem C160_no_false {w : World} (hr : Reachable w) {σ : Ord'} (hσ : Shuffles σ) (trig : Option (Str × Str)) (hp : PinnedSet w) :
    ∃ n, n ≤ unmetCount w ∧ enforce σ trig w = ({ w with warned := w.warned + n }, .ok ()) := by
  obtain ⟨l, h1, h2, _, h3, _⟩ := enforce_edges hr.wf hσ trig
  refine ⟨(l.map (trAt w)).countP (unmet w), ?_, ?_⟩
  · exact (List.subperm_of_subset (edges_nodup hr.wf h2 h3) (edges_sub hr.wf h2)).countP_le _
  · rw [h1]
    exact enfEdges_pinned hr.wf hp l h2 w.warned

/-! ## Where it fails -/

/-- The full claim: a call warns exactly once for every set frequency that is not met when it returns. -/
def C160_full : Prop := ∀ (w : World) (σ : Ord'), Reachable w → Shuffles σ →
  (enforce σ none w).1.warned = w.warned + unmetCount (enforce σ none w).1

/-- C160 fails: the loop g-a 1, a-b 1, g-b 5 leaves one frequency unmet without a warning. -/
theorem C160_fails : ¬C160_full := by
  intro h
  have := h (triangle 5) idOrd (demo_reachable (by decide +kernel)) idOrd_shuffles
  revert this
  decide +kernel

/-- The chain g-a-b at 0, 1, 2, after g-a has been set to 4: a-b, set to 1, now reads 2. -/
def brokenChain : World := runAll (chainOps 1 1 ++ [.enforce idOrd, .setFrequency idOrd 0 4]) (emptyAtom 0 0)

theorem brokenChain_pinned : PinnedSet brokenChain where
  pinned := fun _ _ _ _ he => forall_setEdge (w := brokenChain) (P := fun _ _ t _ => (brokenChain.lv (brokenChain.tr t).lower).fixed = true ∧
    (brokenChain.lv (brokenChain.tr t).upper).fixed = true) (by decide +kernel) he
  upright := fun _ _ _ _ he => forall_setEdge (w := brokenChain) (P := fun _ _ t f =>
    ¬(0 < f ∧ brokenChain.eHz (brokenChain.tr t).lower - brokenChain.eHz (brokenChain.tr t).upper = f)) (by decide +kernel) he

/-- C160: the warning, which asks "Loop of fixed transitions?", comes without a loop: one for the frequency that the setter has broken, and again at
every further call. -/
theorem C160_warns_without_loop : LoopFree brokenChain (fun _ => True) ∧ unmetCount brokenChain = 1 ∧
    ∀ σ, Shuffles σ → enforce σ none brokenChain = ({ brokenChain with warned := brokenChain.warned + 1 }, .ok ()) := by
  have ht : LoopFree brokenChain (fun _ => True) := loopFree_of_parent chainPar chainRk (by decide +kernel) _
  have h1 : unmetCount brokenChain = 1 := by decide +kernel
  refine ⟨ht, h1, fun σ hσ => ?_⟩
  have := C160_check_partial (w := brokenChain) (demo_reachable (by decide +kernel)) hσ ht brokenChain_pinned
  rw [h1] at this
  exact this

/-- The call that breaks a-b has warned once. -/
example : brokenChain.warned = 1 ∧ brokenChain.freqHz 0 = 4 ∧ (brokenChain.tr 1).setFreq = some 1 ∧ brokenChain.freqHz 1 = 2 := by decide +kernel

/-- Two set transitions, at most two warnings. -/
example : (setTrans brokenChain).length = 2 ∧ setTrans brokenChain = [0, 1] := by decide +kernel

end AtomTk
