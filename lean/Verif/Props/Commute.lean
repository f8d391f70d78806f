import Verif.Props.Seeds

/-!
# C162: the order of two retunings does not matter

`set_frequency` on transitions whose frequencies were set before, in groups that are not connected by set transitions.
-/

namespace AtomTk
open Util World

/-! ## Steps at different levels commute -/

theorem enfStep_shape (w : World) (l up : Nat) (f : ℚ) :
    enfStep w l up f = { w with lv := (enfStep w l up f).lv, warned := (enfStep w l up f).warned } := by
  unfold enfStep
  split
  · rfl
  · split <;> rfl

theorem prep_shape (w : World) (t : Nat) (f : ℚ) : prep w t f = { w with lv := (prep w t f).lv, tr := (prep w t f).tr } := by
  unfold prep
  split <;> rfl

/-- A step looks at its two levels only. -/
theorem lv_enfStep_congr {v w : World} {l up : Nat} (f : ℚ) (h1 : v.lv l = w.lv l) (h2 : v.lv up = w.lv up) {i : Nat} (hi : v.lv i = w.lv i) :
    (enfStep v l up f).lv i = (enfStep w l up f).lv i := by
  unfold enfStep eHz
  rw [h1, h2]
  split
  · simp only [setFixed, setLv, upd]
    split <;> split <;> simp_all
  · split <;> (simp only [setFixed, setLv, setE, upd]; split <;> split <;> simp_all)

theorem warned_enfStep_congr {v w : World} {l up : Nat} (f : ℚ) (h1 : v.lv l = w.lv l) (h2 : v.lv up = w.lv up) {k : Nat} (h : v.warned = w.warned + k) :
    (enfStep v l up f).warned = (enfStep w l up f).warned + k := by
  rw [warned_enfStep, warned_enfStep]
  unfold eHz
  rw [h1, h2, h]
  split <;> omega

theorem enfStep_comm (w : World) {l up l' up' : Nat} (f f' : ℚ) (h1 : l ≠ l') (h2 : l ≠ up') (h3 : up ≠ l') (h4 : up ≠ up') :
    enfStep (enfStep w l up f) l' up' f' = enfStep (enfStep w l' up' f') l up f := by
  have hl : (enfStep (enfStep w l up f) l' up' f').lv = (enfStep (enfStep w l' up' f') l up f).lv := by
    funext i
    by_cases hi : i = l' ∨ i = up'
    · have hil : i ≠ l := by rcases hi with rfl | rfl; exacts [h1.symm, h2.symm]
      have hiu : i ≠ up := by rcases hi with rfl | rfl; exacts [h3.symm, h4.symm]
      rw [lv_enfStep_ne _ l up f i hil hiu]
      exact lv_enfStep_congr f' (lv_enfStep_ne _ _ _ _ _ h1.symm h3.symm) (lv_enfStep_ne _ _ _ _ _ h2.symm h4.symm) (lv_enfStep_ne _ _ _ _ _ hil hiu)
    · rw [not_or] at hi
      rw [lv_enfStep_ne _ l' up' f' i hi.1 hi.2]
      exact (lv_enfStep_congr f (lv_enfStep_ne _ _ _ _ _ h1 h2) (lv_enfStep_ne _ _ _ _ _ h3 h4) (lv_enfStep_ne _ _ _ _ _ hi.1 hi.2)).symm
  have hw : (enfStep (enfStep w l up f) l' up' f').warned = (enfStep (enfStep w l' up' f') l up f).warned := by
    have a := warned_enfStep w l up f
    have b := warned_enfStep w l' up' f'
    have c := warned_enfStep (enfStep w l up f) l' up' f'
    have d := warned_enfStep (enfStep w l' up' f') l up f
    unfold eHz at a b c d
    rw [lv_enfStep_ne _ _ _ _ _ h1.symm h3.symm, lv_enfStep_ne _ _ _ _ _ h2.symm h4.symm] at c
    rw [lv_enfStep_ne _ _ _ _ _ h1 h2, lv_enfStep_ne _ _ _ _ _ h3 h4] at d
    rw [c, d, a, b]
    split <;> split <;> omega
  rw [enfStep_shape (enfStep w l up f), enfStep_shape (enfStep w l' up' f'), hl, hw, enfStep_shape w l up f, enfStep_shape w l' up' f']

theorem prep_lv_ne (w : World) (t : Nat) (f : ℚ) {i : Nat} (h : i ≠ (w.tr t).upper) : (prep w t f).lv i = w.lv i := by
  unfold prep
  split
  · show upd w.lv _ _ i = _
    rw [upd_ne _ _ _ h]
  · rfl

theorem prep_lv_congr {v w : World} {t : Nat} (f : ℚ) (ht : v.tr t = w.tr t) (h1 : v.lv (w.tr t).lower = w.lv (w.tr t).lower)
    (h2 : v.lv (w.tr t).upper = w.lv (w.tr t).upper) {i : Nat} (hi : v.lv i = w.lv i) : (prep v t f).lv i = (prep w t f).lv i := by
  have hrel : releases v t ↔ releases w t := by unfold releases; rw [ht, h1, h2]
  unfold prep
  by_cases hr : releases w t
  · rw [if_pos hr, if_pos (hrel.2 hr)]
    show upd v.lv (v.tr t).upper _ i = upd w.lv (w.tr t).upper _ i
    rw [ht]
    unfold upd
    split
    · rw [h2]
    · exact hi
  · rw [if_neg hr, if_neg (fun k => hr (hrel.1 k))]
    exact hi

theorem prep_tr_eq (w : World) (t : Nat) (f : ℚ) : (prep w t f).tr = upd w.tr t { w.tr t with setFreq := some f } := by
  rw [prep_tr]; rfl

/-- Preparing another transition commutes with a step. -/
theorem prep_enfStep (w : World) {l up t : Nat} (f f' : ℚ) (h1 : l ≠ (w.tr t).lower) (h2 : l ≠ (w.tr t).upper) (h3 : up ≠ (w.tr t).lower)
    (h4 : up ≠ (w.tr t).upper) : prep (enfStep w l up f) t f' = enfStep (prep w t f') l up f := by
  have htr : (enfStep w l up f).tr = w.tr := (enfStep_eframe w l up f).tr
  have hl : (prep (enfStep w l up f) t f').lv = (enfStep (prep w t f') l up f).lv := by
    funext i
    by_cases hi : i = l ∨ i = up
    · have hiu : i ≠ (w.tr t).upper := by rcases hi with rfl | rfl; exacts [h2, h4]
      rw [prep_lv_ne _ _ _ (by rw [htr]; exact hiu)]
      exact (lv_enfStep_congr f (prep_lv_ne _ _ _ h2) (prep_lv_ne _ _ _ h4) (prep_lv_ne _ _ _ hiu)).symm
    · rw [not_or] at hi
      rw [lv_enfStep_ne _ l up f i hi.1 hi.2]
      exact prep_lv_congr f' (by rw [htr]) (lv_enfStep_ne _ _ _ _ _ h1.symm h3.symm) (lv_enfStep_ne _ _ _ _ _ h2.symm h4.symm)
        (lv_enfStep_ne _ _ _ _ _ hi.1 hi.2)
  have hw : (enfStep (prep w t f') l up f).warned = (enfStep w l up f).warned :=
    warned_enfStep_congr f (k := 0) (prep_lv_ne _ _ _ h2) (prep_lv_ne _ _ _ h4) (prep_warned w t f')
  have ht : (prep (enfStep w l up f) t f').tr = (prep w t f').tr := by rw [prep_tr_eq, prep_tr_eq, htr]
  rw [prep_shape (enfStep w l up f), enfStep_shape (prep w t f'), hl, hw, ht, enfStep_shape w l up f, prep_shape w t f']

theorem prep_comm (w : World) {t t' : Nat} (f f' : ℚ) (hne : t ≠ t') (h1 : (w.tr t).upper ≠ (w.tr t').lower) (h2 : (w.tr t).upper ≠ (w.tr t').upper)
    (h3 : (w.tr t).lower ≠ (w.tr t').upper) : prep (prep w t f) t' f' = prep (prep w t' f') t f := by
  have a : (prep w t f).tr t' = w.tr t' := by rw [prep_tr, withFreq_tr_ne w hne.symm]
  have b : (prep w t' f').tr t = w.tr t := by rw [prep_tr, withFreq_tr_ne w hne]
  have hl : (prep (prep w t f) t' f').lv = (prep (prep w t' f') t f).lv := by
    funext i
    by_cases hi : i = (w.tr t').upper
    · have hiu : i ≠ (w.tr t).upper := by rw [hi]; exact h2.symm
      rw [prep_lv_ne (prep w t' f') t f (by rw [b]; exact hiu)]
      exact prep_lv_congr f' a (prep_lv_ne _ _ _ h1.symm) (prep_lv_ne _ _ _ h2.symm) (prep_lv_ne _ _ _ hiu)
    · rw [prep_lv_ne (prep w t f) t' f' (by rw [a]; exact hi)]
      exact (prep_lv_congr f b (prep_lv_ne _ _ _ h3) (prep_lv_ne _ _ _ h2) (prep_lv_ne _ _ _ hi)).symm
  have ht : (prep (prep w t f) t' f').tr = (prep (prep w t' f') t f).tr := by
    rw [prep_tr_eq (prep w t f), prep_tr_eq (prep w t' f'), a, b, prep_tr_eq, prep_tr_eq]
    funext i
    unfold upd
    by_cases k1 : i = t' <;> by_cases k2 : i = t <;> simp [k1, k2]
    · exact absurd (k2.symm.trans k1) hne
    all_goals (intro k; first | exact absurd k hne | exact absurd k.symm hne)
  rw [prep_shape (prep w t f), prep_shape (prep w t' f'), hl, ht, prep_shape w t f, prep_shape w t' f']

/-- A list of steps. -/
def enfFold : List (Nat × Nat × ℚ) → World → World
  | [], w => w
  | a :: as, w => enfFold as (enfStep w a.1 a.2.1 a.2.2)

/-- The steps do not use these levels. -/
def Avoids (A : List (Nat × Nat × ℚ)) (P : Nat → Prop) : Prop := ∀ a ∈ A, ¬P a.1 ∧ ¬P a.2.1

theorem enfFold_step (A : List (Nat × Nat × ℚ)) {l up : Nat} (f : ℚ) (h : Avoids A (fun i => i = l ∨ i = up)) (w : World) :
    enfFold A (enfStep w l up f) = enfStep (enfFold A w) l up f := by
  induction A generalizing w with
  | nil => rfl
  | cons a A ih =>
    obtain ⟨h1, h2⟩ := h a (by simp)
    simp only [not_or] at h1 h2
    show enfFold A (enfStep (enfStep w l up f) a.1 a.2.1 a.2.2) = _
    rw [enfStep_comm w f a.2.2 (Ne.symm h1.1) (Ne.symm h2.1) (Ne.symm h1.2) (Ne.symm h2.2), ih (fun b hb => h b (by simp [hb]))]
    rfl

theorem enfFold_comm (A A' : List (Nat × Nat × ℚ)) (h : ∀ a' ∈ A', Avoids A (fun i => i = a'.1 ∨ i = a'.2.1)) (w : World) :
    enfFold A (enfFold A' w) = enfFold A' (enfFold A w) := by
  induction A' generalizing w with
  | nil => rfl
  | cons a A' ih =>
    show enfFold A (enfFold A' (enfStep w _ _ _)) = enfFold A' (enfStep (enfFold A w) _ _ _)
    rw [ih (fun b hb => h b (by simp [hb])), enfFold_step A a.2.2 (h a (by simp))]

theorem enfFold_eframe (A : List (Nat × Nat × ℚ)) (w : World) : EFrame w (enfFold A w) := by
  induction A generalizing w with
  | nil => exact .refl w
  | cons a A ih => exact EFrame.trans _ _ _ (enfStep_eframe w _ _ _) (ih _)

theorem enfFold_lv (A : List (Nat × Nat × ℚ)) {P : Nat → Prop} (h : Avoids A P) {i : Nat} (hi : P i) (w : World) : (enfFold A w).lv i = w.lv i := by
  induction A generalizing w with
  | nil => rfl
  | cons a A ih =>
    obtain ⟨h1, h2⟩ := h a (by simp)
    show (enfFold A (enfStep w _ _ _)).lv i = _
    rw [ih (fun b hb => h b (by simp [hb])), lv_enfStep_ne _ _ _ _ _ (by rintro rfl; exact h1 hi) (by rintro rfl; exact h2 hi)]

theorem enfFold_prep (A : List (Nat × Nat × ℚ)) {t : Nat} (f : ℚ) (w : World) (h : Avoids A (fun i => i = (w.tr t).lower ∨ i = (w.tr t).upper)) :
    prep (enfFold A w) t f = enfFold A (prep w t f) := by
  induction A generalizing w with
  | nil => rfl
  | cons a A ih =>
    obtain ⟨h1, h2⟩ := h a (by simp)
    simp only [not_or] at h1 h2
    show prep (enfFold A (enfStep w _ _ _)) t f = enfFold A (enfStep (prep w t f) _ _ _)
    rw [← prep_enfStep w a.2.2 f h1.1 h1.2 h2.1 h2.2]
    exact ih _ (by rw [(enfStep_eframe w _ _ _).tr]; exact fun b hb => h b (by simp [hb]))

/-- The steps of a list of edges. -/
def acts (w : World) (l : List (Str × Str)) : List (Nat × Nat × ℚ) :=
  l.filterMap fun e => (w.g.adj e.1 e.2).bind fun t => (w.tr t).setFreq.map fun f => ((w.tr t).lower, (w.tr t).upper, f)

theorem enfEdges_acts {w0 : World} (l : List (Str × Str)) (hl : ∀ e ∈ l, ∃ t f, SetEdge w0 e.1 e.2 t f) (w : World) (hf : EFrame w0 w) :
    enfEdges l w = (enfFold (acts w0 l) w, .ok ()) := by
  induction l generalizing w with
  | nil => rfl
  | cons e l ih =>
    obtain ⟨u, v⟩ := e
    obtain ⟨t, f, he⟩ := hl _ (List.mem_cons_self ..)
    have he' : SetEdge w u v t f := (hf.setEdge _ _ _ _).2 he
    unfold enfEdges
    rw [PyM.bind_ok (enfEdge_eq he'), ih (fun e h => hl e (by simp [h])) _ (hf.trans _ _ _ (enfStep_eframe w _ _ f))]
    have : acts w0 ((u, v) :: l) = ((w0.tr t).lower, (w0.tr t).upper, f) :: acts w0 l := by
      unfold acts
      rw [List.filterMap_cons]
      simp only [he.1, he.2, Option.bind_some, Option.map_some]
    rw [this, hf.tr]
    rfl

/-! ## The search is determined by the graph and the energies of the group -/

/-- The edges walked for a triggering transition. -/
def searchOf (σ : Ord') (w : World) (p : Str × Str) : List (Str × Str) :=
  match w.setEdges with
  | .error _ => []
  | .ok es =>
    match (Graph.compsFrom (endpoints es) (fun n => subNbrs w.g es n) (σ .comps (endpoints es)) []).find? (fun c => p.1 ∈ c) with
    | none => []
    | some c =>
      match lowestLoop w (withLevels w.g (σ (.low c) c)) none none with
      | .ok (some s) => Graph.dfsEdges c (fun n => σ (.nbrs c n) (subNbrs w.g es n)) s
      | _ => []

theorem enforce_searchOf {w : World} (hw : WF w) {σ : Ord'} (hσ : Shuffles σ) {p : Str × Str} {t : Nat} {f : ℚ} (he : SetEdge w p.1 p.2 t f) :
    enforce σ (some p) w = enfEdges (searchOf σ w p) w ∧
      ∀ e ∈ searchOf σ w p, (∃ t f, SetEdge w e.1 e.2 t f) ∧ SetConn w p.1 e.1 ∧ SetConn w p.1 e.2 := by
  obtain ⟨es, k1, hes, cs, hcs, hcomp, hpw, hcov⟩ := set_comps hw hσ
  obtain ⟨c, hc, hpc⟩ := hcov _ _ _ _ he
  have hconn := (hcomp c hc).eq_conn hw hpc
  have hmem : ∀ n, n ∈ c ↔ SetConn w p.1 n := fun n => iff_of_eq (congrFun hconn n)
  have hfind : cs.find? (fun c => p.1 ∈ c) = some c := by
    clear hcs hcov
    induction cs with
    | nil => simp at hc
    | cons d cs ih =>
      rw [List.pairwise_cons] at hpw
      rcases List.mem_cons.1 hc with rfl | hc'
      · rw [List.find?_cons_of_pos (by simpa using hpc)]
      · rw [List.find?_cons_of_neg (by simpa using fun k => hpw.1 c hc' _ k hpc)]
        exact ih (fun x hx => hcomp x (by simp [hx])) hpw.2 hc'
  obtain ⟨s, is, out, h1, h2, h3, h4, h5, h6, h7⟩ := comp_search hw hes hσ (hcomp c hc)
  have hs : searchOf σ w p = out := by
    unfold searchOf
    rw [k1]
    simp only
    rw [← hcs, hfind]
    simp only
    rw [h6, h7]
  have hin := h4.inside (· ∈ c) (fun n m hn hm => by
    obtain ⟨t, f, h⟩ := (mem_subNbrs hw hes n m).1 hm
    exact (hcomp c hc).closed hn h) (by intro n hn; simp only [List.mem_singleton] at hn; rw [hn]; exact h1)
  rw [hs]
  refine ⟨?_, ?_⟩
  · have htr : triggered w.g es c (some p) = true := (triggered_some hw hes c p).2 ⟨hpc, t, f, he⟩
    have hfc : enfComp σ es c w = enfEdges out w := by unfold enfComp; rw [h6, h7]
    have hoff : ∀ e : List Str, p.1 ∉ e → ∀ g, g = w.g → triggered g es e (some p) = false := by
      rintro e hpe g rfl
      rw [Bool.eq_false_iff]
      intro hte
      exact hpe ((triggered_some hw hes e p).1 hte).1
    have key : ∀ cs : List (List Str), c ∈ cs → cs.Pairwise (fun c d => ∀ x ∈ c, x ∉ d) →
        enfComps σ es (some p) cs w = enfComp σ es c w := by
      intro cs
      induction cs with
      | nil => simp
      | cons d cs ih =>
        intro hm hp
        rw [List.pairwise_cons] at hp
        by_cases hcd : c = d
        · subst hcd
          obtain ⟨w1, g1, g2, _⟩ := enfComp_frame' hw hes hσ (hcomp c hc)
          unfold enfComps
          rw [if_pos htr, PyM.bind_ok g1, g1]
          apply enfComps_skip
          intro e hemem
          exact hoff e (fun hpe => hp.1 e hemem p.1 hpc hpe) _ g2.g
        · have hm' : c ∈ cs := by
            rcases List.mem_cons.1 hm with h | h
            · exact absurd h hcd
            · exact h
          unfold enfComps
          rw [hoff d (fun hpd => hp.1 c hm' p.1 hpd hpc) _ rfl]
          exact ih hm' hp.2
    unfold enforce
    rw [k1]
    simp only
    rw [← hcs, key cs hc hpw, hfc]
  · intro e he
    obtain ⟨q1, q2, q3, _⟩ := hin e he
    exact ⟨(mem_subNbrs hw hes _ _).1 q3, (hmem _).1 q1, (hmem _).1 q2⟩

theorem setEdgesL_congr {v w : World} (h : ∀ t, (v.tr t).built = (w.tr t).built ∧ (v.tr t).setFreq.isSome = (w.tr t).setFreq.isSome)
    (l : List ((Str × Str) × Nat)) : setEdgesL v l = setEdgesL w l := by
  induction l with
  | nil => rfl
  | cons e l ih =>
    obtain ⟨e, t⟩ := e
    unfold setEdgesL
    rw [(h t).1, (h t).2, ih]

theorem lowestLoop_congr {v w : World} (l : List (Str × Option Nat)) (cur : Option Nat) (k : Option Str)
    (h : ∀ i, (∃ n, (n, some i) ∈ l) ∨ cur = some i → v.eHz i = w.eHz i) : lowestLoop v l cur k = lowestLoop w l cur k := by
  induction l generalizing cur k with
  | nil => cases cur <;> rfl
  | cons e l ih =>
    obtain ⟨n, o⟩ := e
    rcases cur with _ | cur
    · unfold lowestLoop
      refine ih _ _ (fun i hi => h i ?_)
      rcases hi with ⟨n', hn'⟩ | rfl
      · exact .inl ⟨n', by simp [hn']⟩
      · exact .inl ⟨n, by simp⟩
    · rcases o with _ | i
      · rfl
      · unfold lowestLoop
        rw [h i (.inl ⟨n, by simp⟩), h cur (.inr rfl)]
        rw [ih (some i) (some n) (fun j hj => h j ?_), ih (some cur) k (fun j hj => h j ?_)]
        · rcases hj with ⟨n', hn'⟩ | hj
          · exact .inl ⟨n', by simp [hn']⟩
          · exact .inr hj
        · rcases hj with ⟨n', hn'⟩ | hj
          · exact .inl ⟨n', by simp [hn']⟩
          · cases hj; exact .inl ⟨n, by simp⟩

theorem searchOf_congr {v w : World} (hw : WF w) {σ : Ord'} (hσ : Shuffles σ) (p : Str × Str) (hg : v.g = w.g)
    (h : ∀ t, (v.tr t).built = (w.tr t).built ∧ (v.tr t).setFreq.isSome = (w.tr t).setFreq.isSome)
    (hE : ∀ i, InX w (SetConn w p.1) i → v.eHz i = w.eHz i) : searchOf σ v p = searchOf σ w p := by
  obtain ⟨es, k1, hes, cs, hcs, hcomp, hpw, hcov⟩ := set_comps hw hσ
  have hse : v.setEdges = w.setEdges := by unfold setEdges; rw [hg, setEdgesL_congr h]
  unfold searchOf
  rw [hse, hg, k1]
  simp only
  rw [← hcs]
  cases hf : cs.find? (fun c => decide (p.1 ∈ c)) with
  | none => simp only
  | some c =>
    have hc := List.mem_of_find?_eq_some hf
    have hpc : p.1 ∈ c := by simpa using List.find?_some hf
    have hconn := (hcomp c hc).eq_conn hw hpc
    have hmem : ∀ n, n ∈ c ↔ SetConn w p.1 n := fun n => iff_of_eq (congrFun hconn n)
    simp only
    rw [lowestLoop_congr]
    rintro i (⟨n, hn⟩ | hn)
    · unfold withLevels at hn
      simp only [List.mem_map, Prod.mk.injEq] at hn
      obtain ⟨n', hn', rfl, hni⟩ := hn
      exact hE i ⟨n', (hmem n').1 ((hσ (.low c) c).mem_iff.1 hn'), hni⟩
    · simp at hn

/-! ## Retuning -/

/-- The names of the two levels of a transition. -/
def ends (w : World) (t : Nat) : Str × Str := (w.lname (w.tr t).e1, w.lname (w.tr t).e2)

/-- The steps of `set_frequency`. -/
def actsOf (σ : Ord') (w : World) (t : Nat) (f : ℚ) : List (Nat × Nat × ℚ) :=
  acts (prep w t f) (searchOf σ (prep w t f) (ends w t))

/-- Giving a transition that has a set frequency another one leaves the groups as they are. -/
theorem conn_retune (w : World) {t : Nat} (f : ℚ) (h : (w.tr t).setFreq ≠ none) : SetConn (prep w t f) = SetConn w := by
  obtain ⟨f0, h0⟩ := Option.ne_none_iff_exists'.1 h
  have : (fun a b => ∃ t' f', SetEdge (prep w t f) a b t' f') = (fun a b => ∃ t' f', SetEdge w a b t' f') := by
    funext a b
    apply propext
    constructor
    · rintro ⟨t', f', k⟩
      rw [prep_setEdge, withFreq_setEdge] at k
      rcases k with ⟨rfl, _, k⟩ | ⟨_, k⟩
      · exact ⟨t', f0, k, h0⟩
      · exact ⟨t', f', k⟩
    · rintro ⟨t', f', k⟩
      by_cases e : t' = t
      · subst e
        exact ⟨t', f, by rw [prep_setEdge, withFreq_setEdge]; exact .inl ⟨rfl, rfl, k.1⟩⟩
      · exact ⟨t', f', by rw [prep_setEdge, withFreq_setEdge]; exact .inr ⟨e, k⟩⟩
  funext v
  show Relation.ReflTransGen _ v = Relation.ReflTransGen _ v
  rw [this]

theorem _root_.AtomTk.World.Frame.ends {v w : World} (h : Frame w v) (t : Nat) : ends v t = ends w t := by
  unfold AtomTk.ends lname
  rw [h.term, h.term, (h.tr t).1, (h.tr t).2.1]

theorem enfFold_frame (A : List (Nat × Nat × ℚ)) (w : World) : Frame w (enfFold A w) := (enfFold_eframe A w).frame

theorem setFrequency_acts {w : World} (hw : WF w) {σ : Ord'} (hσ : Shuffles σ) {t : Nat} (f : ℚ) (ht : InAtom w t) (h : (w.tr t).setFreq ≠ none) :
    setFrequency σ t f w = (enfFold (actsOf σ w t f) (prep w t f), .ok ()) ∧
      (∀ e ∈ searchOf σ (prep w t f) (ends w t), (∃ t' f', SetEdge (prep w t f) e.1 e.2 t' f') ∧ SetConn w (ends w t).1 e.1 ∧ SetConn w (ends w t).1 e.2) ∧
      ∀ a ∈ actsOf σ w t f, InX w (SetConn w (ends w t).1) a.1 ∧ InX w (SetConn w (ends w t).1) a.2.1 := by
  obtain ⟨k1, hb, k3, k4, k5, k6⟩ := hw.edge _ _ _ ht
  have ha : (w.lv (w.tr t).e1).inAtom = true := by
    rcases k6 with ⟨e, _⟩ | ⟨e, _⟩
    · rw [e]; exact (hw.node _ _ k3).2.1
    · rw [e]; exact (hw.node _ _ k4).2.1
  have hwp := hw.frame (prep_frame w t f)
  have hset : SetEdge (prep w t f) (ends w t).1 (ends w t).2 t f := by
    rw [prep_setEdge, withFreq_setEdge]
    exact .inl ⟨rfl, rfl, ht⟩
  obtain ⟨h1, h2⟩ := enforce_searchOf hwp hσ (p := ends w t) hset
  rw [conn_retune w f h] at h2
  refine ⟨?_, h2, ?_⟩
  · rw [setFrequency_eq hb ha]
    show enforce σ (some (ends w t)) _ = _
    rw [h1, enfEdges_acts _ (fun e he => (h2 e he).1) _ (.refl _)]
    rfl
  · intro a ha
    unfold actsOf acts at ha
    rw [List.mem_filterMap] at ha
    obtain ⟨e, he, hea⟩ := ha
    obtain ⟨⟨t', f', hs⟩, c1, c2⟩ := h2 e he
    rw [hs.1] at hea
    simp only [Option.bind_some, hs.2, Option.map_some, Option.some.injEq] at hea
    subst hea
    have := hs.inX hwp (X := SetConn w (ends w t).1) c1 c2
    rw [prep_inX, prep_inX] at this
    exact this

/-- The two transitions are in groups not connected by set transitions. -/
def Separate (w : World) (t t' : Nat) : Prop := ¬SetConn w (ends w t).1 (ends w t').1

theorem Separate.symm {w : World} (hw : WF w) {t t' : Nat} (h : Separate w t t') : Separate w t' t := fun k => h (SetConn.symm hw k)

theorem Separate.levels {w : World} (hw : WF w) {t t' : Nat} (h : Separate w t t') {i : Nat} (hi : InX w (SetConn w (ends w t).1) i)
    (hi' : InX w (SetConn w (ends w t').1) i) : False := by
  obtain ⟨n, hn, h1⟩ := hi
  obtain ⟨m, hm, h2⟩ := hi'
  have := lev_inj hw h1 h2
  subst this
  exact h (hn.trans (SetConn.symm hw hm))

theorem own_levels {w : World} (hw : WF w) {t : Nat} (ht : InAtom w t) (h : (w.tr t).setFreq ≠ none) :
    InX w (SetConn w (ends w t).1) (w.tr t).lower ∧ InX w (SetConn w (ends w t).1) (w.tr t).upper := by
  obtain ⟨f0, h0⟩ := Option.ne_none_iff_exists'.1 h
  have hs : SetEdge w (ends w t).1 (ends w t).2 t f0 := ⟨ht, h0⟩
  exact hs.inX hw (X := SetConn w (ends w t).1) .refl (.single ⟨t, f0, hs⟩)

/-- Two calls, as one list of steps. -/
theorem retune_two {w : World} (hw : WF w) {σ σ' : Ord'} (hσ : Shuffles σ) (hσ' : Shuffles σ') {t t' : Nat} (f f' : ℚ) (ht : InAtom w t)
    (ht' : InAtom w t') (h : (w.tr t).setFreq ≠ none) (h' : (w.tr t').setFreq ≠ none) (hsep : Separate w t t') :
    (do setFrequency σ t f; setFrequency σ' t' f' : PyM Unit) w =
      (enfFold (actsOf σ' w t' f') (enfFold (actsOf σ w t f) (prep (prep w t f) t' f')), .ok ()) := by
  have hne : t' ≠ t := by rintro rfl; exact hsep .refl
  obtain ⟨a1, a2, a3⟩ := setFrequency_acts hw hσ f ht h
  obtain ⟨b1, b2, b3⟩ := setFrequency_acts hw hσ' f' ht' h'
  rw [PyM.bind_ok a1]
  have hE := enfFold_eframe (actsOf σ w t f) (prep w t f)
  have hF : Frame w (enfFold (actsOf σ w t f) (prep w t f)) := (prep_frame w t f).trans _ _ _ hE.frame
  generalize hv : enfFold (actsOf σ w t f) (prep w t f) = v at hE hF ⊢
  have hwv : WF v := hw.frame hF
  have htr : ∀ x, x ≠ t → v.tr x = w.tr x := by
    intro x hx
    rw [hE.tr, prep_tr, withFreq_tr_ne w hx]
  have hg : v.g = w.g := hF.g
  have hends : ends v t' = ends w t' := hF.ends t'
  have hInv : InAtom v t' := by
    show v.g.adj (ends v t').1 (ends v t').2 = some t'
    rw [hg, hends]; exact ht'
  obtain ⟨c1, _, _⟩ := setFrequency_acts hwv hσ' f' hInv (by rw [htr t' hne]; exact h')
  rw [c1]
  -- the energies of the other group
  have hEn : ∀ i, InX w (SetConn w (ends w t').1) i → v.eHz i = w.eHz i := by
    intro i hi
    unfold eHz
    rw [← hv, enfFold_lv (actsOf σ w t f) (P := InX w (SetConn w (ends w t').1)) ?_ hi]
    · exact prep_eHz w t f i
    · intro a ha
      exact ⟨fun k => hsep.levels hw (a3 a ha).1 k, fun k => hsep.levels hw (a3 a ha).2 k⟩
  have hsearch : searchOf σ' (prep v t' f') (ends w t') = searchOf σ' (prep w t' f') (ends w t') := by
    refine searchOf_congr (hw.frame (prep_frame w t' f')) hσ' _ (by rw [prep_g, prep_g, hg]) ?_ ?_
    · intro x
      rw [prep_tr_eq, prep_tr_eq]
      unfold upd
      by_cases hx : x = t'
      · simp [hx, htr t' hne]
      · simp only [hx, if_false]
        by_cases hx' : x = t
        · subst hx'
          rw [hE.tr, prep_tr, withFreq_tr_same]
          exact ⟨rfl, by rcases k : (w.tr x).setFreq with _ | _; exacts [absurd k h, rfl]⟩
        · rw [htr x hx']; exact ⟨rfl, rfl⟩
    · intro i hi
      rw [conn_retune w f' h', prep_inX] at hi
      rw [prep_eHz, prep_eHz, hEn i hi]
  have hacts : actsOf σ' v t' f' = actsOf σ' w t' f' := by
    unfold actsOf
    rw [hends, hsearch]
    unfold acts
    refine List.filterMap_congr ?_
    intro e he
    obtain ⟨⟨x, fx, hx⟩, q1, _⟩ := b2 e he
    have hxt : x ≠ t := by
      rintro rfl
      rw [prep_setEdge, withFreq_setEdge] at hx
      rcases hx with ⟨k, _⟩ | ⟨_, hx⟩
      · exact hne k.symm
      · obtain ⟨f0, h0⟩ := Option.ne_none_iff_exists'.1 h
        have hs : SetEdge w (ends w x).1 (ends w x).2 x f0 := ⟨ht, h0⟩
        rcases setEdge_pair hw hx hs with ⟨k, _⟩ | ⟨k, _⟩
        · rw [k] at q1; exact hsep (SetConn.symm hw q1)
        · rw [k] at q1
          exact hsep ((Relation.ReflTransGen.single ⟨x, f0, hs⟩).trans (SetConn.symm hw q1))
    rw [prep_g, prep_g, hg]
    have hx1 : w.g.adj e.1 e.2 = some x := by have := hx.1; rwa [prep_g] at this
    rw [hx1]
    simp only [Option.bind_some]
    have : (prep v t' f').tr x = (prep w t' f').tr x := by
      rw [prep_tr_eq, prep_tr_eq]
      unfold upd
      by_cases k : x = t'
      · simp [k, htr t' hne]
      · simp [k, htr x hxt]
    rw [this]
  rw [hacts, ← hv]
  refine Prod.ext ?_ rfl
  show enfFold _ (prep (enfFold _ _) t' f') = _
  rw [enfFold_prep]
  rw [prep_tr, withFreq_tr_ne w hne]
  have ho := own_levels hw ht' h'
  intro a ha
  constructor
  · rintro (k | k)
    · exact hsep.levels hw (a3 a ha).1 (k ▸ ho.1)
    · exact hsep.levels hw (a3 a ha).1 (k ▸ ho.2)
  · rintro (k | k)
    · exact hsep.levels hw (a3 a ha).2 (k ▸ ho.1)
    · exact hsep.levels hw (a3 a ha).2 (k ▸ ho.2)

/-- C162 (what holds): two transitions in separate groups, whose frequencies had been set before, may be given new frequencies in either order: the whole
atom is the same, warnings included. -/
theorem C162_two_partial {w : World} (hr : Reachable w) {σ σ' : Ord'} (hσ : Shuffles σ) (hσ' : Shuffles σ') {t t' : Nat} (f f' : ℚ) (ht : InAtom w t)
    (ht' : InAtom w t') (h : (w.tr t).setFreq ≠ none) (h' : (w.tr t').setFreq ≠ none) (hsep : Separate w t t') :
    (do setFrequency σ t f; setFrequency σ' t' f' : PyM Unit) w = (do setFrequency σ' t' f'; setFrequency σ t f : PyM Unit) w := by
  have hw := hr.wf
  rw [retune_two hw hσ hσ' f f' ht ht' h h' hsep, retune_two hw hσ' hσ f' f ht' ht h' h (hsep.symm hw)]
  have hne : t ≠ t' := by rintro rfl; exact hsep .refl
  have o := own_levels hw ht h
  have o' := own_levels hw ht' h'
  rw [prep_comm w f f' hne (fun k => hsep.levels hw o.2 (k ▸ o'.1)) (fun k => hsep.levels hw o.2 (k ▸ o'.2)) (fun k => hsep.levels hw o.1 (k ▸ o'.2))]
  rw [enfFold_comm]
  obtain ⟨_, _, a3⟩ := setFrequency_acts hw hσ f ht h
  obtain ⟨_, _, b3⟩ := setFrequency_acts hw hσ' f' ht' h'
  intro a ha b hb
  constructor
  · rintro (k | k)
    · exact hsep.levels hw (a3 a ha).1 (k ▸ (b3 b hb).1)
    · exact hsep.levels hw (a3 a ha).2 (k ▸ (b3 b hb).1)
  · rintro (k | k)
    · exact hsep.levels hw (a3 a ha).1 (k ▸ (b3 b hb).2)
    · exact hsep.levels hw (a3 a ha).2 (k ▸ (b3 b hb).2)

/-! ## Any number of calls -/

/-- A call of `set_frequency`: order of the sets, transition, frequency. -/
abbrev Retune := Ord' × Nat × ℚ

/-- As a call. -/
def Retune.op (r : Retune) : Op := .setFrequency r.1 r.2.1 r.2.2

/-- The transition is in the atom and has a set frequency. -/
def Retune.Ok (w : World) (r : Retune) : Prop := Shuffles r.1 ∧ InAtom w r.2.1 ∧ (w.tr r.2.1).setFreq ≠ none

theorem retune_keeps {w : World} (hr : Reachable w) {a : Retune} (ha : a.Ok w) :
    Reachable (a.op.run w).1 ∧ (∀ b : Retune, b.Ok w → b.Ok (a.op.run w).1) ∧ ∀ t t', Separate w t t' → Separate (a.op.run w).1 t t' := by
  obtain ⟨h1, h2, h3⟩ := ha
  refine ⟨.step _ hr trivial, ?_⟩
  have hw := hr.wf
  have hs := (setFrequency_acts hw h1 a.2.2 h2 h3).1
  have hrun : (a.op.run w).1 = enfFold (actsOf a.1 w a.2.1 a.2.2) (prep w a.2.1 a.2.2) := by
    show (setFrequency a.1 a.2.1 a.2.2 w).1 = _
    rw [hs]
  rw [hrun]
  have hE := enfFold_eframe (actsOf a.1 w a.2.1 a.2.2) (prep w a.2.1 a.2.2)
  have hF := (prep_frame w a.2.1 a.2.2).trans _ _ _ hE.frame
  generalize enfFold (actsOf a.1 w a.2.1 a.2.2) (prep w a.2.1 a.2.2) = v at hE hF ⊢
  have hconn : SetConn v = SetConn w := by
    rw [← conn_retune w a.2.2 h3]
    funext n
    show Relation.ReflTransGen _ n = Relation.ReflTransGen _ n
    congr 1
    funext x y
    simp only [hE.setEdge]
  refine ⟨?_, ?_⟩
  · rintro b ⟨k1, k2, k3⟩
    refine ⟨k1, ?_, ?_⟩
    · show v.g.adj (ends v b.2.1).1 (ends v b.2.1).2 = _
      rw [hF.g, hF.ends]; exact k2
    · rw [hE.tr, prep_tr]
      by_cases k : b.2.1 = a.2.1
      · rw [k, withFreq_tr_same]; simp
      · rw [withFreq_tr_ne w k]; exact k3
  · intro t t' k
    unfold Separate
    rw [hconn, hF.ends, hF.ends]
    exact k

/-- C162 for any number of calls: transitions in separate groups may be retuned in any order. -/
theorem C162_any_order_partial {K K' : List Retune} (hp : K.Perm K') {w : World} (hr : Reachable w) (hK : ∀ a ∈ K, a.Ok w)
    (hsep : K.Pairwise (fun a b => Separate w a.2.1 b.2.1)) : runAll (K.map Retune.op) w = runAll (K'.map Retune.op) w := by
  induction hp generalizing w with
  | nil => rfl
  | @cons a K K' _ ih =>
    rw [List.pairwise_cons] at hsep
    obtain ⟨k1, k2, k3⟩ := retune_keeps hr (hK a (by simp))
    exact ih k1 (fun b hb => k2 b (hK b (by simp [hb]))) (hsep.2.imp (k3 _ _))
  | swap a b K =>
    rw [List.pairwise_cons] at hsep
    obtain ⟨a1, a2, a3⟩ := hK a (by simp)
    obtain ⟨b1, b2, b3⟩ := hK b (by simp)
    have hc := C162_two_partial hr b1 a1 b.2.2 a.2.2 b2 a2 b3 a3 (hsep.1 a (by simp))
    obtain ⟨w1, k1, _⟩ := C39_only_group hr b1 b.2.2 b2
    obtain ⟨w2, k2, _⟩ := C39_only_group hr a1 a.2.2 a2
    rw [PyM.bind_ok k1, PyM.bind_ok k2] at hc
    show runAll (K.map Retune.op) (setFrequency a.1 a.2.1 a.2.2 (setFrequency b.1 b.2.1 b.2.2 w).1).1 =
      runAll (K.map Retune.op) (setFrequency b.1 b.2.1 b.2.2 (setFrequency a.1 a.2.1 a.2.2 w).1).1
    rw [k1, k2]
    rw [hc]
  | trans h1 h2 ih1 ih2 =>
    rw [ih1 hr hK hsep]
    exact ih2 hr (fun a ha => hK a (h1.mem_iff.2 ha)) ((h1.pairwise_iff (fun h => Separate.symm hr.wf h)).1 hsep)

/-- Two pairs of levels, g-a at 0 and 1 and b-c at 2 and 5, with their frequencies set and enforced. -/
def twoPairs : World := runAll (threeLevels 0 1 2 ++ [.newLevel (demoTerm 'c') 5 0 0 0 0 none, .addLevel 3 false none,
  .newTrans 0 1 (some 1) .none none, .newTrans 2 3 (some 3) .none none, .enforce idOrd]) (emptyAtom 0 0)

theorem twoPairs_separate : Separate twoPairs 0 1 := by
  intro h
  have key : ∀ n, SetConn twoPairs (ends twoPairs 0).1 n → n = demoName 'g' ∨ n = demoName 'a' := by
    intro n hn
    induction hn with
    | refl => exact .inl (by decide +kernel)
    | tail _ hbc ih =>
      obtain ⟨t, f, he⟩ := hbc
      exact forall_setEdge (w := twoPairs) (P := fun n m _ _ => (n = demoName 'g' ∨ n = demoName 'a') → (m = demoName 'g' ∨ m = demoName 'a'))
        (by decide +kernel) he ih
  exact absurd (key _ h) (by decide +kernel)

example : runAll [Op.setFrequency idOrd 0 4, .setFrequency idOrd 1 7] twoPairs = runAll [Op.setFrequency idOrd 1 7, .setFrequency idOrd 0 4] twoPairs ∧
    (runAll [Op.setFrequency idOrd 0 4, .setFrequency idOrd 1 7] twoPairs).eHz 3 = 9 := by
  refine ⟨C162_any_order_partial (K := [(idOrd, 0, 4), (idOrd, 1, 7)]) (K' := [(idOrd, 1, 7), (idOrd, 0, 4)]) (.swap ..)
    (demo_reachable (by decide +kernel)) ?_ ?_, by decide +kernel⟩
  · intro a ha
    simp only [List.mem_cons, List.not_mem_nil, or_false] at ha
    rcases ha with rfl | rfl
    · exact ⟨idOrd_shuffles, by decide +kernel, by decide +kernel⟩
    · exact ⟨idOrd_shuffles, by decide +kernel, by decide +kernel⟩
  · rw [List.pairwise_pair]
    exact twoPairs_separate

/-! ## Where it fails -/

/-- The full claim: any two transitions with set frequencies. -/
def C162_full : Prop := ∀ (w : World) (σ : Ord') (t t' : Nat) (f f' : ℚ), Reachable w → Shuffles σ → InAtom w t → InAtom w t' → t ≠ t' →
  (w.tr t).setFreq ≠ none → (w.tr t').setFreq ≠ none → 0 ≤ f → 0 ≤ f' →
    (do setFrequency σ t f; setFrequency σ t' f' : PyM Unit) w = (do setFrequency σ t' f'; setFrequency σ t f : PyM Unit) w

/-- The enforced chain g-a-b at 0, 1, 2. -/
def tunedChain : World := runAll (chainOps 1 1 ++ [.enforce idOrd]) (emptyAtom 0 0)

/-- C162 fails within a group: in the chain 0, 1, 2, setting g-a to 4 and then a-b to 3 puts b at 7; the other way round b ends at 4, and a-b, set to 3, is 0. -/
theorem C162_fails : ¬C162_full := by
  intro h
  have := h tunedChain idOrd 0 1 4 3 (demo_reachable (by decide +kernel)) idOrd_shuffles (by decide +kernel) (by decide +kernel) (by decide)
    (by decide +kernel) (by decide +kernel) (by norm_num) (by norm_num)
  have h1 := congrArg (fun r => r.1.eHz 2) this
  revert h1
  decide +kernel

example : ((setFrequency idOrd 1 3 (setFrequency idOrd 0 4 tunedChain).1).1.eHz 2, (setFrequency idOrd 0 4 (setFrequency idOrd 1 3 tunedChain).1).1.eHz 2)
    = (7, 4) := by decide +kernel

end AtomTk
