import Verif.Model.SubEnds
import Verif.Props.Enforce
import Verif.Props.TransKeys
import Verif.Props.Draw
import Verif.Props.Transitions
import Verif.Props.Energies
import Verif.Props.Seeds

/-!
# C172: transitions between sublevels in the graph of levels
-/

namespace AtomTk
open Util World

/-! ## Graphs whose nodes may have no level -/

/-- What enforcement needs of the graph: every edge is a finished transition. -/
structure Sane (w : World) : Prop where
  gok : w.g.Ok
  built : ∀ u v t, w.g.adj u v = some t → (w.tr t).built = true
  lt : ∀ u v t, w.g.adj u v = some t → t < w.ntr

theorem WF.sane {w : World} (hw : WF w) : Sane w := ⟨hw.gok, fun u v t h => (hw.edge u v t h).2.1, fun u v t h => (hw.edge u v t h).1⟩

namespace Sane

theorem symm {w : World} (hw : Sane w) {u v : Str} {t : Nat} {f : ℚ} (h : SetEdge w u v t f) : SetEdge w v u t f :=
  ⟨by rw [hw.gok.symm]; exact h.1, h.2⟩

theorem setEdges {w : World} (hw : Sane w) : ∃ es, w.setEdges = .ok es ∧ EsOk w es := by
  have hb : ∀ p ∈ w.g.edges, (w.tr p.2).built = true := by
    rintro ⟨⟨u, v⟩, t⟩ hp
    exact hw.built u v t ((Graph.mem_edges hw.gok u v t).1 hp).1
  obtain ⟨es, h1, h2⟩ := setEdgesL_spec w w.g.edges hb
  refine ⟨es, h1, ?_⟩
  intro u v
  rw [h2]
  constructor
  · rintro ⟨t, ht, hs⟩
    obtain ⟨ha, hbf⟩ := (Graph.mem_edges hw.gok u v t).1 ht
    obtain ⟨f, hf⟩ := Option.isSome_iff_exists.1 hs
    exact ⟨⟨t, f, ha, hf⟩, hbf⟩
  · rintro ⟨⟨t, f, ha, hf⟩, hbf⟩
    exact ⟨t, (Graph.mem_edges hw.gok u v t).2 ⟨ha, hbf⟩, by rw [hf]; rfl⟩

theorem nbrs {w : World} (hw : Sane w) {es : List (Str × Str)} (hes : EsOk w es) (n m : Str) :
    m ∈ subNbrs w.g es n ↔ ∃ t f, SetEdge w n m t f := by
  unfold subNbrs
  cases hr : w.g.get? n with
  | none =>
    simp only [List.not_mem_nil, false_iff]
    rintro ⟨t, f, h, _⟩
    unfold Graph.adj at h
    rw [hr] at h
    simp at h
  | some r =>
    simp only [List.mem_filter, Bool.or_eq_true, decide_eq_true_eq, hes n m, hes m n]
    constructor
    · rintro ⟨_, ⟨h, _⟩ | ⟨⟨t, f, h⟩, _⟩⟩
      · exact h
      · exact ⟨t, f, hw.symm h⟩
    · rintro ⟨t, f, h⟩
      refine ⟨?_, ?_⟩
      · have h1 := h.1
        unfold Graph.adj at h1
        rw [hr] at h1
        exact (Dict.get?_isSome r.nbrs m).1 ⟨t, h1⟩
      · rcases w.g.before_total n m with hb | hb
        · exact .inl ⟨⟨t, f, h⟩, hb⟩
        · exact .inr ⟨⟨t, f, hw.symm h⟩, hb⟩

theorem ends {w : World} (hw : Sane w) {es : List (Str × Str)} (hes : EsOk w es) (n : Str) :
    n ∈ endpoints es ↔ ∃ m t f, SetEdge w n m t f := by
  rw [mem_endpoints]
  constructor
  · rintro ⟨m, h | h⟩
    · obtain ⟨⟨t, f, h⟩, _⟩ := (hes n m).1 h
      exact ⟨m, t, f, h⟩
    · obtain ⟨⟨t, f, h⟩, _⟩ := (hes m n).1 h
      exact ⟨m, t, f, hw.symm h⟩
  · rintro ⟨m, t, f, h⟩
    rcases w.g.before_total n m with hb | hb
    · exact ⟨m, .inl ((hes n m).2 ⟨⟨t, f, h⟩, hb⟩)⟩
    · exact ⟨m, .inr ((hes m n).2 ⟨⟨t, f, hw.symm h⟩, hb⟩)⟩

/-- The components enforcement loops over. -/
theorem comps {w : World} (hw : Sane w) {σ : Ord'} (hσ : Shuffles σ) {es : List (Str × Str)} (hes : EsOk w es) :
    (∀ c ∈ Graph.compsFrom (endpoints es) (fun n => subNbrs w.g es n) (σ .comps (endpoints es)) [], IsComp w c) ∧
    ∀ n m t f, SetEdge w n m t f → ∃ c ∈ Graph.compsFrom (endpoints es) (fun n => subNbrs w.g es n) (σ .comps (endpoints es)) [], n ∈ c := by
  have hV := nodup_endpoints es
  have hcl : ∀ v ∈ endpoints es, ∀ c ∈ subNbrs w.g es v, c ∈ endpoints es := by
    intro v _ c hc
    obtain ⟨t, f, h⟩ := (hw.nbrs hes v c).1 hc
    exact (hw.ends hes c).2 ⟨v, t, f, hw.symm h⟩
  obtain ⟨s1, _, s3⟩ := Graph.compsFrom_spec (endpoints es) (fun n => subNbrs w.g es n) hV hcl
    (fun a b h => (hw.nbrs hes b a).2 (by obtain ⟨t, f, h⟩ := (hw.nbrs hes a b).1 h; exact ⟨t, f, hw.symm h⟩)) (σ .comps (endpoints es)) []
    (fun v hv => (hσ .comps (endpoints es)).mem_iff.1 hv) (by simp)
  constructor
  · intro c hc
    obtain ⟨v, hv, _, rfl⟩ := s1 c hc
    have hvV := (hσ .comps (endpoints es)).mem_iff.1 hv
    refine ⟨Graph.nodup_reach _ _ hV hcl v hvV, v, (hw.ends hes v).1 hvV, fun n => ?_⟩
    rw [Graph.mem_reach _ _ hV hcl v hvV n]
    have : (fun a b => b ∈ subNbrs w.g es a) = (fun a b => ∃ t f, SetEdge w a b t f) := by
      funext x y
      exact propext (hw.nbrs hes x y)
    unfold Graph.Conn SetConn
    rw [this]
  · intro n m t f he
    rcases s3 n ((hσ .comps (endpoints es)).mem_iff.2 ((hw.ends hes n).2 ⟨m, t, f, he⟩)) with h | h
    · simp at h
    · exact h

end Sane

theorem EFrame.sane {w w' : World} (h : EFrame w w') (hw : Sane w) : Sane w' :=
  ⟨by rw [h.g]; exact hw.gok, fun u v t ht => by rw [h.g] at ht; rw [h.tr]; exact hw.built u v t ht,
    fun u v t ht => by rw [h.g] at ht; rw [h.ntr]; exact hw.lt u v t ht⟩

namespace SubW

/-! ## One step -/

/-- What enforcement leaves alone. -/
structure SFrame (s s' : SubW) : Prop where
  w : EFrame s.w s'.w
  nhf : s'.w.nhf = s.w.nhf
  nzl : s'.w.nzl = s.w.nzl
  sub : s'.sub = s.sub
  fixed : s'.fixed = s.fixed

theorem SFrame.refl (s : SubW) : SFrame s s := ⟨.refl _, rfl, rfl, rfl, rfl⟩

theorem SFrame.trans {a b c : SubW} (h1 : SFrame a b) (h2 : SFrame b c) : SFrame a c :=
  ⟨.trans _ _ _ h1.w h2.w, h2.nhf.trans h1.nhf, h2.nzl.trans h1.nzl, h2.sub.trans h1.sub, h2.fixed.trans h1.fixed⟩

theorem hHz_ok {w w' : World} (h : EFrame w w') {j : Nat} (hj : ∃ a, w.hHz j = .ok a) : ∃ a, w'.hHz j = .ok a := by
  obtain ⟨a, ha⟩ := hj
  have e : w'.hShift j = w.hShift j := by
    obtain ⟨E, b, hl⟩ := h.lv (w.hf j).parent
    unfold World.hShift
    rw [h.hf, hl, h.I]
  unfold World.hHz at ha ⊢
  rw [e]
  cases hs : w.hShift j with
  | error e => rw [hs] at ha; cases ha
  | ok q => exact ⟨_, rfl⟩

theorem refHz_ok {w w' : World} (h : EFrame w w') {r : Ref} (hr : ∃ a, w.refHz r = .ok a) : ∃ a, w'.refHz r = .ok a := by
  cases r with
  | fine i => exact ⟨_, rfl⟩
  | hyp j => exact hHz_ok h hr
  | zee k =>
    obtain ⟨a, ha⟩ := hr
    unfold World.refHz World.zHz at ha ⊢
    simp only at ha ⊢
    rw [h.zl]
    cases hp : w.hHz (w.zl k).parent with
    | error e => rw [hp] at ha; cases ha
    | ok p =>
      obtain ⟨p', hp'⟩ := hHz_ok h ⟨p, hp⟩
      rw [hp] at ha
      rw [hp']
      have e : w'.zShiftHz k = w.zShiftHz k := by unfold World.zShiftHz; rw [h.zl, h.B]
      rw [e]
      cases hs : w.zShiftHz k with
      | error e => rw [hs] at ha; cases ha
      | ok q => exact ⟨_, rfl⟩

/-- A hyperfine or Zeeman level that has been made. -/
def Made (w : World) : Ref → Prop
  | .fine _ => False
  | .hyp j => j < w.nhf
  | .zee k => k < w.nzl ∧ (w.zl k).parent < w.nhf

instance (w : World) (r : Ref) : Decidable (Made w r) := by
  cases r <;> unfold Made <;> infer_instance

theorem Made.isSub {w : World} {r : Ref} (h : Made w r) : r.isSub = true := by
  cases r with
  | fine i => exact h.elim
  | hyp j => rfl
  | zee k => rfl

/-- A sublevel that has been made and has an energy. -/
def Good (w : World) (r : Ref) : Prop := Made w r ∧ ∃ a, w.refHz r = .ok a

theorem hHz_look {w w' : World} (h : LFrame w w') {j : Nat} (hj : j < w.nhf) : w'.hHz j = w.hHz j := by
  obtain ⟨q, hq⟩ := h.hf j hj
  obtain ⟨q', hq'⟩ := h.lv (w.hf j).parent
  unfold World.hHz World.hShift World.eHz
  rw [hq]
  simp only
  rw [hq', h.I]

theorem refHz_look {w w' : World} (h : LFrame w w') {r : Ref} (hr : Made w r) : w'.refHz r = w.refHz r := by
  cases r with
  | fine i => exact hr.elim
  | hyp j => exact hHz_look h hr
  | zee k =>
    unfold World.refHz World.zHz World.zShiftHz
    simp only
    rw [h.zl k hr.1, h.B, hHz_look h hr.2]

theorem Made.look {w w' : World} (h : LFrame w w') {r : Ref} (hr : Made w r) : Made w' r := by
  cases r with
  | fine i => exact hr.elim
  | hyp j => exact lt_of_lt_of_le hr h.nhf
  | zee k =>
    refine ⟨lt_of_lt_of_le hr.1 h.nzl, ?_⟩
    rw [h.zl k hr.1]
    exact lt_of_lt_of_le hr.2 h.nhf

theorem Good.look {w w' : World} (h : LFrame w w') {r : Ref} (hr : Good w r) : Good w' r :=
  ⟨hr.1.look h, by rw [refHz_look h hr.1]; exact hr.2⟩

/-- The transitions in the table join sublevels. -/
def Sound (s : SubW) : Prop := ∀ t x, s.sub t = some x → Good s.w x.lower ∧ Good s.w x.upper

theorem Good.frame {s s' : SubW} (h : SFrame s s') {r : Ref} (hr : Good s.w r) : Good s'.w r := by
  refine ⟨?_, refHz_ok h.w hr.2⟩
  have h1 := hr.1
  cases r with
  | fine i => exact h1
  | hyp j => unfold Made at h1 ⊢; rw [h.nhf]; exact h1
  | zee k => unfold Made at h1 ⊢; rw [h.nhf, h.nzl, h.w.zl]; exact h1

theorem Sound.frame {s s' : SubW} (hs : Sound s) (h : SFrame s s') : Sound s' := by
  intro t x hx
  rw [h.sub] at hx
  exact ⟨(hs t x hx).1.frame h, (hs t x hx).2.frame h⟩

/-- Between two sublevels that are not pinned the step raises. -/
theorem step_sub {s : SubW} {l u : Ref} (hl : Good s.w l) (hu : Good s.w u) (nf : ∀ r, s.fixed r = false) (f : ℚ) :
    s.step l u f = .error .AttributeError := by
  obtain ⟨ml, a, ha⟩ := hl
  obtain ⟨mu, b, hb⟩ := hu
  have fix : ∀ r : Ref, Made s.w r → s.isFixed r = false := by
    intro r hr
    cases r with
    | fine i => exact hr.elim
    | hyp j => exact nf _
    | zee k => exact nf _
  have put : ∀ r : Ref, Made s.w r → ∀ q, s.putHz r q = .error .AttributeError := by
    intro r hr q
    cases r with
    | fine i => exact hr.elim
    | hyp j => rfl
    | zee k => rfl
  unfold step
  simp only [fix l ml, fix u mu, ha, Bool.and_self, bind, Except.bind, Bool.false_eq_true, if_false]
  exact put u mu _

/-! ## The invariant -/

/-- The atoms with transitions between sublevels considered: they join nodes without a level, the others join levels, and no sublevel is pinned. -/
structure Clean (s : SubW) : Prop where
  sane : Sane s.w
  sound : Sound s
  split : ∀ u v t, s.w.g.adj u v = some t → (s.w.g.lev u = none ↔ s.sub t ≠ none)
  free : ∀ r, s.fixed r = false

theorem Clean.frame {s s' : SubW} (hs : Clean s) (h : SFrame s s') : Clean s' := by
  refine ⟨EFrame.sane h.w hs.sane, hs.sound.frame h, ?_, ?_⟩
  · intro u v t ht
    rw [h.w.g] at ht ⊢
    rw [h.sub]
    exact hs.split u v t ht
  · intro r; rw [h.fixed]; exact hs.free r

/-- One edge of the search: a transition between levels is enforced, one between sublevels raises. -/
theorem enfEdge_cases {s : SubW} (hs : Clean s) {u v : Str} {t : Nat} {f : ℚ} (he : SetEdge s.w u v t f) :
    (s.sub t = none ∧ enfEdge u v s = ({ s with w := (World.enfEdge u v s.w).1 }, .ok ()) ∧ World.enfEdge u v s.w = ((World.enfEdge u v s.w).1, .ok ()) ∧
      SFrame s { s with w := (World.enfEdge u v s.w).1 }) ∨
    (s.sub t ≠ none ∧ enfEdge u v s = (s, .error .AttributeError)) := by
  unfold enfEdge
  rw [he.1]
  cases hx : s.sub t with
  | none =>
    refine .inl ⟨rfl, ?_, ?_, ?_⟩
    · simp only [hx, enfEdge_eq he]
    · rw [enfEdge_eq he]
    · rw [enfEdge_eq he]
      refine ⟨enfStep_eframe _ _ _ _, ?_, ?_, rfl, rfl⟩
      · simp only [enfStep]; split <;> [rfl; (split <;> rfl)]
      · simp only [enfStep]; split <;> [rfl; (split <;> rfl)]
  | some x =>
    refine .inr ⟨by simp, ?_⟩
    simp only [hx, he.2, step_sub (hs.sound t x hx).1 (hs.sound t x hx).2 hs.free f]

theorem SetEdge.sframe {s s' : SubW} (h : SFrame s s') {u v : Str} {t : Nat} {f : ℚ} (he : SetEdge s.w u v t f) : SetEdge s'.w u v t f :=
  ⟨by rw [h.w.g]; exact he.1, by rw [h.w.tr]; exact he.2⟩

/-- The search: it stops at the first transition between sublevels. -/
theorem enfEdges_cases (l : List (Str × Str)) {s : SubW} (hs : Clean s) (hl : ∀ e ∈ l, ∃ t f, SetEdge s.w e.1 e.2 t f) :
    ∃ s', SFrame s s' ∧
      ((enfEdges l s = (s', .ok ()) ∧ World.enfEdges l s.w = (s'.w, .ok ()) ∧ ∀ e ∈ l, ∀ t, s.w.g.adj e.1 e.2 = some t → s.sub t = none) ∨
        (enfEdges l s = (s', .error .AttributeError) ∧ ∃ e ∈ l, ∃ t, s.w.g.adj e.1 e.2 = some t ∧ s.sub t ≠ none)) := by
  induction l generalizing s with
  | nil => exact ⟨s, .refl s, .inl ⟨rfl, rfl, by simp⟩⟩
  | cons e l ih =>
    obtain ⟨u, v⟩ := e
    obtain ⟨t, f, he⟩ := hl (u, v) (by simp)
    rcases enfEdge_cases hs he with ⟨h0, h1, h2, h3⟩ | ⟨h0, h1⟩
    · obtain ⟨s', k1, k2⟩ := ih (hs.frame h3) (fun e he' => by
        obtain ⟨t', f', h⟩ := hl e (by simp [he'])
        exact ⟨t', f', SetEdge.sframe h3 h⟩)
      refine ⟨s', h3.trans k1, ?_⟩
      have e1 : enfEdges ((u, v) :: l) s = enfEdges l { s with w := (World.enfEdge u v s.w).1 } := by
        simp only [enfEdges, h1]
      have e2 : World.enfEdges ((u, v) :: l) s.w = World.enfEdges l (World.enfEdge u v s.w).1 := by
        simp only [World.enfEdges]
        exact PyM.bind_ok h2
      have hg := h3.w.g
      simp only at hg
      rw [e1, e2]
      rcases k2 with ⟨j1, j2, j3⟩ | ⟨j1, e, he', t', j2, j3⟩
      · refine .inl ⟨j1, j2, ?_⟩
        intro e he' t' ht'
        rcases List.mem_cons.1 he' with rfl | he'
        · have := he.1.symm.trans ht'
          cases this; exact h0
        · exact j3 e he' t' (by simp only [hg]; exact ht')
      · exact .inr ⟨j1, e, by simp [he'], t', by simp only [hg] at j2; exact j2, j3⟩
    · exact ⟨s, .refl s, .inr ⟨by simp only [enfEdges, h1], (u, v), by simp, t, he.1, h0⟩⟩

/-! ## One component -/

theorem lowestLoop_cases (w : World) (l : List (Str × Option Nat)) (cur : Option Nat) (k : Option Str) :
    lowestLoop w l cur k = .error .AttributeError ∨ ∃ r, lowestLoop w l cur k = .ok r ∧ (r = k ∨ ∃ n ∈ l.map Prod.fst, r = some n) := by
  induction l generalizing cur k with
  | nil => exact .inr ⟨k, by cases cur <;> rfl, .inl rfl⟩
  | cons p l ih =>
    obtain ⟨n, o⟩ := p
    have lift : ∀ (cur' : Option Nat) (k' : Option Str), (k' = k ∨ k' = some n) → (lowestLoop w l cur' k' = .error .AttributeError ∨
        ∃ r, lowestLoop w l cur' k' = .ok r ∧ (r = k ∨ ∃ m ∈ ((n, o) :: l).map Prod.fst, r = some m)) := by
      intro cur' k' hk
      rcases ih cur' k' with h | ⟨r, h, hr⟩
      · exact .inl h
      · refine .inr ⟨r, h, ?_⟩
        rcases hr with rfl | ⟨m, hm, rfl⟩
        · rcases hk with rfl | rfl
          · exact .inl rfl
          · exact .inr ⟨n, by simp, rfl⟩
        · exact .inr ⟨m, by simp only [List.map_cons, List.mem_cons]; exact .inr hm, rfl⟩
    rcases cur with _ | cur
    · unfold lowestLoop; exact lift _ _ (.inr rfl)
    · rcases o with _ | i
      · exact .inl rfl
      · unfold lowestLoop
        split
        · exact lift _ _ (.inr rfl)
        · exact lift _ _ (.inl rfl)

theorem lowestLoop_error (w : World) (l : List (Str × Option Nat)) (cur : Option Nat) (k : Option Str) (e : PyErr) (h : lowestLoop w l cur k = .error e) :
    ∃ p ∈ l, p.2 = none := by
  induction l generalizing cur k with
  | nil => cases cur <;> cases h
  | cons p l ih =>
    obtain ⟨n, o⟩ := p
    rcases cur with _ | cur
    · unfold lowestLoop at h
      obtain ⟨p, hp, hn⟩ := ih _ _ h
      exact ⟨p, by simp [hp], hn⟩
    · rcases o with _ | i
      · exact ⟨(n, none), by simp, rfl⟩
      · unfold lowestLoop at h
        split at h
        all_goals
          obtain ⟨p, hp, hn⟩ := ih _ _ h
          exact ⟨p, by simp [hp], hn⟩

/-- The edges of the search are set transitions of the component. -/
theorem search_edges {w : World} (hw : Sane w) {es : List (Str × Str)} (hes : EsOk w es) {σ : Ord'} (hσ : Shuffles σ) {c : List Str} (hc : IsComp w c)
    {k : Str} (hk : k ∈ c) :
    (∀ e ∈ Graph.dfsEdges c (fun n => σ (.nbrs c n) (subNbrs w.g es n)) k, e.1 ∈ c ∧ ∃ t f, SetEdge w e.1 e.2 t f) ∧
    ((∃ n ∈ c, n ≠ k) → Graph.dfsEdges c (fun n => σ (.nbrs c n) (subNbrs w.g es n)) k ≠ []) := by
  have hcl : ∀ v ∈ c, ∀ x ∈ σ (.nbrs c v) (subNbrs w.g es v), x ∈ c := by
    intro v hv x hx
    obtain ⟨t, f, h⟩ := (hw.nbrs hes v x).1 ((hσ (.nbrs c v) (subNbrs w.g es v)).mem_iff.1 hx)
    exact hc.closed hv h
  obtain ⟨hg, _⟩ := Graph.dfsEdges_spec c (fun n => σ (.nbrs c n) (subNbrs w.g es n)) hc.1 hcl k hk
  have hmem := fun n => Graph.mem_reach c (fun n => σ (.nbrs c n) (subNbrs w.g es n)) hc.1 hcl k hk n
  constructor
  · have gen : ∀ (vis : List Str) (out : List (Str × Str)), Graph.Grow (fun n => σ (.nbrs c n) (subNbrs w.g es n)) vis out → (∀ v ∈ vis, v ∈ c) →
        ∀ e ∈ out, e.1 ∈ c ∧ ∃ t f, SetEdge w e.1 e.2 t f := by
      intro vis out h
      induction h with
      | nil => intro _ e he; cases he
      | @cons vis p d out h1 h2 h3 h4 ih =>
        intro hv e he
        rcases List.mem_cons.1 he with rfl | he
        · exact ⟨hv p h1, (hw.nbrs hes p d).1 ((hσ (.nbrs c p) (subNbrs w.g es p)).mem_iff.1 h3)⟩
        · refine ih (fun v hv' => ?_) e he
          rcases List.mem_cons.1 hv' with rfl | hv'
          · exact hcl p (hv p h1) _ h3
          · exact hv v hv'
    exact gen [k] _ hg (by simp [hk])
  · rintro ⟨n, hn, hne⟩ hnil
    have : n ∈ Graph.reach c (fun n => σ (.nbrs c n) (subNbrs w.g es n)) k := by
      rw [hmem n]
      obtain ⟨_, v, _, hv⟩ := hc
      have c1 := (hv k).1 hk
      have c2 := (hv n).1 hn
      have symm : ∀ {a b : Str}, SetConn w a b → SetConn w b a := by
        intro a b h
        induction h with
        | refl => exact .refl
        | tail _ hbc ih => obtain ⟨t, f, h⟩ := hbc; exact .head ⟨t, f, hw.symm h⟩ ih
      refine Relation.ReflTransGen.mono ?_ _ _ ((symm c1).trans c2)
      rintro a b ⟨t, f, h⟩
      exact (hσ (.nbrs c a) (subNbrs w.g es a)).mem_iff.2 ((hw.nbrs hes a b).2 ⟨t, f, h⟩)
    simp only [Graph.reach, hnil, List.map_nil, List.mem_cons, List.not_mem_nil, or_false] at this
    exact hne this

/-- One component: it raises `AttributeError`, or it is enforced as in the atom without transitions between sublevels. -/
theorem enfComp_cases {s : SubW} (hs : Clean s) {es : List (Str × Str)} (hes : EsOk s.w es) {σ : Ord'} (hσ : Shuffles σ) {c : List Str}
    (hc : IsComp s.w c) :
    ∃ s', SFrame s s' ∧ ((enfComp σ es c s = (s', .error .AttributeError) ∧ ∃ n ∈ c, s.w.g.lev n = none) ∨
      (enfComp σ es c s = (s', .ok ()) ∧ World.enfComp σ es c s.w = (s'.w, .ok ()) ∧ ∀ n ∈ c, ∀ m, m ≠ n → ∀ t, s.w.g.adj n m = some t →
        (s.w.tr t).setFreq ≠ none → s.sub t = none)) := by
  have hp := hσ (.low c) c
  rcases lowestLoop_cases s.w (withLevels s.w.g (σ (.low c) c)) none none with h | ⟨r, h, hr⟩
  · refine ⟨s, .refl s, .inl ⟨by simp only [enfComp, h], ?_⟩⟩
    obtain ⟨p, hp', hn⟩ := lowestLoop_error _ _ _ _ _ h
    simp only [withLevels, List.mem_map] at hp'
    obtain ⟨n, hn', rfl⟩ := hp'
    exact ⟨n, hp.mem_iff.1 hn', hn⟩
  · rcases hr with rfl | ⟨k, hk, rfl⟩
    · exfalso
      have hne : ∃ n, n ∈ c := by obtain ⟨_, v, _, hv⟩ := hc; exact ⟨v, (hv v).2 .refl⟩
      obtain ⟨n, hn⟩ := hne
      cases hw : withLevels s.w.g (σ (.low c) c) with
      | nil =>
        have : n ∈ σ (.low c) c := hp.mem_iff.2 hn
        simp only [withLevels, List.map_eq_nil_iff] at hw
        rw [hw] at this; cases this
      | cons p l =>
        rw [hw] at h
        obtain ⟨n', o⟩ := p
        unfold lowestLoop at h
        have some_stays : ∀ (l : List (Str × Option Nat)) (cur : Option Nat) (q : Str), lowestLoop s.w l cur (some q) ≠ .ok none := by
          intro l
          induction l with
          | nil => intro cur q hq; cases cur <;> cases hq
          | cons p l ih =>
            obtain ⟨n, o⟩ := p
            intro cur q
            rcases cur with _ | cur
            · unfold lowestLoop; exact ih _ _
            · rcases o with _ | i
              · intro hq; cases hq
              · unfold lowestLoop; split <;> exact ih _ _
        exact some_stays _ _ _ h
    · have hkc : k ∈ c := by
        simp only [withLevels, List.map_map, List.mem_map, Function.comp] at hk
        obtain ⟨n, hn, rfl⟩ := hk
        exact hp.mem_iff.1 hn
      obtain ⟨j1, j2⟩ := search_edges hs.sane hes hσ hc hkc
      obtain ⟨s', f1, f2⟩ := enfEdges_cases _ hs (fun e he => (j1 e he).2)
      refine ⟨s', f1, ?_⟩
      have e1 : enfComp σ es c s = enfEdges (Graph.dfsEdges c (fun n => σ (.nbrs c n) (subNbrs s.w.g es n)) k) s := by
        simp only [enfComp, h]
      have e2 : World.enfComp σ es c s.w = World.enfEdges (Graph.dfsEdges c (fun n => σ (.nbrs c n) (subNbrs s.w.g es n)) k) s.w := by
        simp only [World.enfComp, h]
      rw [e1, e2]
      rcases f2 with ⟨g1, g2, g3⟩ | ⟨g1, e, he, t, g2, g3⟩
      · refine .inr ⟨g1, g2, ?_⟩
        intro n hn m hm t ht hset
        obtain ⟨f, hf⟩ := Option.ne_none_iff_exists'.1 hset
        by_contra hsub
        -- every node of the component is bare, so that the first edge of the search is one between sublevels
        have bare : ∀ a ∈ c, s.w.g.lev a = none := by
          have bn : s.w.g.lev n = none := (hs.split n m t ht).2 hsub
          have along : ∀ a b, SetConn s.w a b → (s.w.g.lev a = none ↔ s.w.g.lev b = none) := by
            intro a b hab
            induction hab with
            | refl => rfl
            | tail _ hbc ih =>
              obtain ⟨t, f, h⟩ := hbc
              rw [ih, hs.split _ _ t h.1, hs.split _ _ t (hs.sane.symm h).1]
          obtain ⟨_, v, _, hv⟩ := hc
          intro a ha
          exact (along v a ((hv a).1 ha)).1 ((along v n ((hv n).1 hn)).2 bn)
        have hm' : m ∈ c := hc.closed hn ⟨ht, hf⟩
        have hne : Graph.dfsEdges c (fun n => σ (.nbrs c n) (subNbrs s.w.g es n)) k ≠ [] := by
          apply j2
          by_cases hnk : n = k
          · exact ⟨m, hm', fun e => hm (e.trans hnk.symm)⟩
          · exact ⟨n, hn, hnk⟩
        obtain ⟨e, l, hel⟩ := List.exists_cons_of_ne_nil hne
        have he : e ∈ Graph.dfsEdges c (fun n => σ (.nbrs c n) (subNbrs s.w.g es n)) k := by rw [hel]; simp
        obtain ⟨q1, t', f', q2⟩ := j1 e he
        exact (hs.split _ _ t' q2.1).1 (bare _ q1) (g3 e he t' q2.1)
      · exact .inl ⟨g1, e.1, (j1 e he).1, (hs.split _ _ t g2).2 g3⟩

/-! ## The whole enforcement -/

theorem esOk_frame {s s' : SubW} (h : SFrame s s') {es : List (Str × Str)} (he : EsOk s.w es) : EsOk s'.w es := EFrame.esOk h.w he

/-- The loop over the components: it raises `AttributeError`, or it is the one of the atom without transitions between sublevels. -/
theorem enfComps_cases {σ : Ord'} (hσ : Shuffles σ) {es : List (Str × Str)} (trig : Option (Str × Str)) (cs : List (List Str)) {s : SubW} (hs : Clean s)
    (hes : EsOk s.w es) (hcs : ∀ c ∈ cs, IsComp s.w c) :
    ∃ s', SFrame s s' ∧ ((enfComps σ es trig cs s = (s', .error .AttributeError) ∧ ∃ c ∈ cs, triggered s.w.g es c trig = true ∧ ∃ n ∈ c, s.w.g.lev n = none) ∨
      (enfComps σ es trig cs s = (s', .ok ()) ∧ World.enfComps σ es trig cs s.w = (s'.w, .ok ()) ∧ ∀ c ∈ cs, triggered s.w.g es c trig = true →
        ∀ n ∈ c, ∀ m, m ≠ n → ∀ t, s.w.g.adj n m = some t → (s.w.tr t).setFreq ≠ none → s.sub t = none)) := by
  induction cs generalizing s with
  | nil => exact ⟨s, .refl s, .inr ⟨rfl, rfl, by simp⟩⟩
  | cons c cs ih =>
    by_cases ht : triggered s.w.g es c trig = true
    · obtain ⟨s1, h1, h2⟩ := enfComp_cases hs hes hσ (hcs c (by simp))
      rcases h2 with ⟨h2, h3⟩ | ⟨h2, h3, h4⟩
      · exact ⟨s1, h1, .inl ⟨by simp only [enfComps, ht, if_true, h2], c, by simp, ht, h3⟩⟩
      · obtain ⟨s', k1, k2⟩ := ih (hs.frame h1) (esOk_frame h1 hes) (fun d hd => (EFrame.isComp h1.w d).2 (hcs d (by simp [hd])))
        have e1 : enfComps σ es trig (c :: cs) s = enfComps σ es trig cs s1 := by simp only [enfComps, ht, if_true, h2]
        have e2 : World.enfComps σ es trig (c :: cs) s.w = World.enfComps σ es trig cs s1.w := by
          simp only [World.enfComps, ht, if_true]
          exact PyM.bind_ok h3
        refine ⟨s', h1.trans k1, ?_⟩
        rw [e1, e2]
        rcases k2 with ⟨k2, d, q1, q2, q3⟩ | ⟨k2, k3, k4⟩
        · rw [h1.w.g] at q2 q3
          exact .inl ⟨k2, d, by simp [q1], q2, q3⟩
        · refine .inr ⟨k2, k3, ?_⟩
          intro d hd htd n hn m hm t htt hset
          rcases List.mem_cons.1 hd with rfl | hd
          · exact h4 n hn m hm t htt hset
          · have := k4 d hd (by rw [h1.w.g]; exact htd) n hn m hm t (by rw [h1.w.g]; exact htt) (by rw [h1.w.tr]; exact hset)
            rw [h1.sub] at this
            exact this
    · obtain ⟨s', k1, k2⟩ := ih hs hes (fun d hd => hcs d (by simp [hd]))
      refine ⟨s', k1, ?_⟩
      have e1 : enfComps σ es trig (c :: cs) s = enfComps σ es trig cs s := by simp only [enfComps, ht, if_false, Bool.false_eq_true]
      have e2 : World.enfComps σ es trig (c :: cs) s.w = World.enfComps σ es trig cs s.w := by
        simp only [World.enfComps, ht, if_false, Bool.false_eq_true]
      rw [e1, e2]
      rcases k2 with ⟨k2, d, q1, q2⟩ | ⟨k2, k3, k4⟩
      · exact .inl ⟨k2, d, by simp [q1], q2⟩
      · refine .inr ⟨k2, k3, ?_⟩
        intro d hd htd
        rcases List.mem_cons.1 hd with rfl | hd
        · exact absurd htd ht
        · exact k4 d hd htd

/-- `enforce_consistency`: it raises `AttributeError`, or it is the one of the atom without transitions between sublevels. -/
theorem enforce_cases {σ : Ord'} (hσ : Shuffles σ) (trig : Option (Str × Str)) {s : SubW} (hs : Clean s) :
    ∃ s', SFrame s s' ∧ ((s.enforce σ trig = (s', .error .AttributeError) ∧
        ∃ n m t f, SetEdge s.w n m t f ∧ s.sub t ≠ none ∧ ∀ p, trig = some p → SetConn s.w p.1 n) ∨
      (s.enforce σ trig = (s', .ok ()) ∧ World.enforce σ trig s.w = (s'.w, .ok ()) ∧
        ∀ n m t f, SetEdge s.w n m t f → n ≠ m → (∀ p, trig = some p → SetConn s.w p.1 n ∧ ∃ t f, SetEdge s.w p.1 p.2 t f) → s.sub t = none)) := by
  obtain ⟨es, h1, hes⟩ := hs.sane.setEdges
  obtain ⟨c1, c2⟩ := hs.sane.comps hσ hes
  obtain ⟨s', k1, k2⟩ := enfComps_cases hσ trig _ hs hes c1
  refine ⟨s', k1, ?_⟩
  have e1 : s.enforce σ trig = enfComps σ es trig (Graph.compsFrom (endpoints es) (fun n => subNbrs s.w.g es n) (σ .comps (endpoints es)) []) s := by
    simp only [enforce, h1]
  have e2 : World.enforce σ trig s.w =
      World.enfComps σ es trig (Graph.compsFrom (endpoints es) (fun n => subNbrs s.w.g es n) (σ .comps (endpoints es)) []) s.w := by
    simp only [World.enforce, h1]
  rw [e1, e2]
  have symm : ∀ {a b : Str}, SetConn s.w a b → SetConn s.w b a := by
    intro a b h
    induction h with
    | refl => exact .refl
    | tail _ hbc ih => obtain ⟨t, f, h⟩ := hbc; exact .head ⟨t, f, hs.sane.symm h⟩ ih
  rcases k2 with ⟨k2, c, q1, q2, n, q3, q4⟩ | ⟨k2, k3, k4⟩
  · refine .inl ⟨k2, ?_⟩
    obtain ⟨_, v, hv0, hv⟩ := c1 c q1
    have : ∃ m t f, SetEdge s.w n m t f := by
      have hc := (hv n).1 q3
      cases hc with
      | refl => exact hv0
      | tail _ hbc => obtain ⟨t, f, h⟩ := hbc; exact ⟨_, t, f, hs.sane.symm h⟩
    obtain ⟨m, t, f, he⟩ := this
    refine ⟨n, m, t, f, he, (hs.split _ _ t he.1).1 q4, ?_⟩
    rintro p rfl
    simp only [triggered, inComp, Bool.and_eq_true, decide_eq_true_eq] at q2
    exact (symm ((hv p.1).1 q2.1)).trans ((hv n).1 q3)
  · refine .inr ⟨k2, k3, ?_⟩
    intro n m t f he hne htrig
    obtain ⟨c, hc, hn⟩ := c2 n m t f he
    refine k4 c hc ?_ n hn m (Ne.symm hne) t he.1 (by rw [he.2]; simp)
    cases trig with
    | none => rfl
    | some p =>
      obtain ⟨q1, q2⟩ := htrig p rfl
      simp only [triggered, inComp, Bool.and_eq_true, decide_eq_true_eq]
      refine ⟨?_, (hs.sane.nbrs hes _ _).2 q2⟩
      obtain ⟨_, v, _, hv⟩ := c1 c hc
      exact (hv p.1).2 (((hv n).1 hn).trans (symm q1))

/-! ## The atoms considered -/

/-- An atom with levels and transitions, in which transitions between sublevels have then been added, with or without a frequency; between the calls
levels are looked up, `enforce_consistency` is called and the frequencies of transitions of both kinds are set. -/
inductive ReachableS : SubW → Prop
  | start {w : World} : Reachable w → ReachableS (of w)
  | look {s : SubW} (key : Str) : ReachableS s → ReachableS { s with w := (levelsGet key s.w).1 }
  | add {s : SubW} (σ : Ord') (a b : Ref) (freq : Option ℚ) : ReachableS s → Shuffles σ → Good s.w a → Good s.w b →
      s.w.g.lev (s.w.refName a) = none → s.w.g.lev (s.w.refName b) = none → ReachableS (s.addRefs σ a b freq).1
  | enforce {s : SubW} (σ : Ord') (trig : Option (Str × Str)) : ReachableS s → Shuffles σ → ReachableS (s.enforce σ trig).1
  | set {s : SubW} (σ : Ord') (t : Nat) (f : ℚ) : ReachableS s → Shuffles σ → ReachableS (s.setFrequency σ t f).1

theorem clean_of {w : World} (hr : Reachable w) : Clean (of w) := by
  refine ⟨WF.sane hr.wf, fun t x hx => (by cases hx), ?_, fun _ => rfl⟩
  intro u v t ht
  constructor
  · intro h; exact absurd h (hr.levelled u (Graph.mem_of_adj ht))
  · intro h; exact absurd rfl h

theorem Clean.look {s : SubW} (hs : Clean s) {w : World} (h : LFrame s.w w) : Clean { s with w := w } := by
  refine ⟨⟨by rw [h.g]; exact hs.sane.gok, ?_, ?_⟩, ?_, ?_, hs.free⟩
  · intro u v t ht
    simp only at ht ⊢
    rw [h.g] at ht; rw [h.tr]; exact hs.sane.built u v t ht
  · intro u v t ht
    simp only at ht ⊢
    rw [h.g] at ht; rw [h.ntr]; exact hs.sane.lt u v t ht
  · intro t x hx
    exact ⟨(hs.sound t x hx).1.look h, (hs.sound t x hx).2.look h⟩
  · intro u v t ht
    simp only at ht ⊢
    rw [h.g] at ht ⊢; exact hs.split u v t ht

/-- Pinning and unpinning levels and setting frequencies. -/
theorem Clean.retune {s : SubW} (hs : Clean s) {w : World} {tr : Nat → Trans} (hb : ∀ t, (tr t).built = (s.w.tr t).built)
    (h : SFrame { s with w := { s.w with tr := tr } } { s with w := w }) : Clean { s with w := w } := by
  refine Clean.frame (s := { s with w := { s.w with tr := tr } }) ⟨⟨hs.sane.gok, ?_, hs.sane.lt⟩, hs.sound, hs.split, hs.free⟩ h
  intro u v t ht
  simp only [hb]
  exact hs.sane.built u v t ht

theorem Clean.setTr {s : SubW} (hs : Clean s) (t : Nat) (f : Option ℚ) : Clean { s with w := s.w.setTr t { s.w.tr t with setFreq := f } } := by
  refine hs.retune (tr := upd s.w.tr t { s.w.tr t with setFreq := f }) ?_ (.refl _)
  intro t'
  unfold upd
  by_cases h : t' = t
  · simp [h]
  · simp [h]

theorem Clean.setFixed {s : SubW} (hs : Clean s) (i : Nat) (b : Bool) : Clean { s with w := s.w.setFixed i b } := by
  refine hs.retune (tr := s.w.tr) (fun _ => rfl) ⟨⟨rfl, rfl, rfl, rfl, rfl, rfl, rfl, rfl, rfl, rfl, ?_⟩, rfl, rfl, rfl, rfl⟩
  intro i'
  by_cases h : i' = i
  · subst h; exact ⟨(s.w.lv i').levelHz, b, by simp [World.setFixed, World.setLv, upd]⟩
  · exact ⟨(s.w.lv i').levelHz, (s.w.lv i').fixed, by simp [World.setFixed, World.setLv, upd, h]⟩

theorem newSub_ok {s : SubW} {a b : Ref} (ha : Good s.w a) (hb : Good s.w b) (freq : Option ℚ) :
    ∃ x : SubT, (x.lower = a ∧ x.upper = b ∨ x.lower = b ∧ x.upper = a) ∧ x.e1 = a ∧ x.e2 = b ∧ newSub a b freq s =
      ({ s with w := { s.w with ntr := s.w.ntr + 1,
                                tr := upd s.w.tr s.w.ntr ⟨0, 0, 0, 0, true, none, (false, false, false), freq, none, []⟩,
                                g := s.w.g.addEdge (s.w.refName x.lower) (s.w.refName x.upper) s.w.ntr },
                sub := upd s.sub s.w.ntr (some x) }, .ok s.w.ntr) := by
  obtain ⟨_, ea, ha⟩ := ha
  obtain ⟨_, eb, hb⟩ := hb
  refine ⟨⟨a, b, if eb > ea then a else b, if eb > ea then b else a⟩, ?_, rfl, rfl, ?_⟩
  · by_cases h : eb > ea <;> simp [h]
  · simp only [newSub, ha, hb]

/-- The atom once the transition is registered. -/
def joined (s : SubW) (x : SubT) (freq : Option ℚ) : SubW :=
  { s with w := { s.w with ntr := s.w.ntr + 1,
                           tr := upd s.w.tr s.w.ntr ⟨0, 0, 0, 0, true, none, (false, false, false), freq, none, []⟩,
                           g := s.w.g.addEdge (s.w.refName x.lower) (s.w.refName x.upper) s.w.ntr },
           sub := upd s.sub s.w.ntr (some x) }

theorem refName_joined (s : SubW) (x : SubT) (freq : Option ℚ) (r : Ref) : (s.joined x freq).w.refName r = s.w.refName r := by
  cases r <;> rfl

theorem Clean.joined {s : SubW} (hs : Clean s) {x : SubT} (hl : Good s.w x.lower) (hu : Good s.w x.upper)
    (nl : s.w.g.lev (s.w.refName x.lower) = none) (nu : s.w.g.lev (s.w.refName x.upper) = none) (freq : Option ℚ) : Clean (s.joined x freq) := by
  have old : ∀ {u v t}, (s.joined x freq).w.g.adj u v = some t →
      (t = s.w.ntr ∧ (u = s.w.refName x.lower ∨ u = s.w.refName x.upper)) ∨ (t < s.w.ntr ∧ s.w.g.adj u v = some t) := by
    intro u v t ht
    have ht : (s.w.g.addEdge (s.w.refName x.lower) (s.w.refName x.upper) s.w.ntr).adj u v = some t := ht
    rw [Graph.adj_addEdge] at ht
    split at ht
    · rename_i h
      cases ht
      refine .inl ⟨rfl, ?_⟩
      rcases h with h | h
      · exact .inl h.1.symm
      · exact .inr h.2.symm
    · exact .inr ⟨hs.sane.lt u v t ht, ht⟩
  refine ⟨⟨hs.sane.gok.addEdge _ _ _, ?_, ?_⟩, ?_, ?_, hs.free⟩
  · intro u v t ht
    rcases old ht with ⟨rfl, _⟩ | ⟨h1, h2⟩
    · simp [SubW.joined, upd]
    · simp only [SubW.joined, upd, if_neg (Nat.ne_of_lt h1)]
      exact hs.sane.built u v t h2
  · intro u v t ht
    rcases old ht with ⟨rfl, _⟩ | ⟨h1, _⟩
    · exact Nat.lt_succ_self _
    · exact Nat.lt_succ_of_lt h1
  · intro t y hy
    have hy : upd s.sub s.w.ntr (some x) t = some y := hy
    unfold upd at hy
    split at hy
    · cases hy; exact ⟨hl, hu⟩
    · exact hs.sound t y hy
  · intro u v t ht
    have e : (s.joined x freq).w.g.lev u = s.w.g.lev u := Graph.lev_addEdge _ _ _ _ _
    rw [e]
    rcases old ht with ⟨rfl, h⟩ | ⟨h1, h2⟩
    · have : (s.joined x freq).sub s.w.ntr ≠ none := by simp [SubW.joined, upd]
      refine ⟨fun _ => this, fun _ => ?_⟩
      rcases h with rfl | rfl
      · exact nl
      · exact nu
    · have : (s.joined x freq).sub t = s.sub t := by simp [SubW.joined, upd, Nat.ne_of_lt h1]
      rw [this]
      exact hs.split u v t h2

/-- What `add_transition` does between two sublevels. -/
theorem addRefs_eq {s : SubW} (hs : Clean s) {a b : Ref} (ha : Good s.w a) (hb : Good s.w b) (freq : Option ℚ) (σ : Ord') :
    ∃ x : SubT, (x.lower = a ∧ x.upper = b ∨ x.lower = b ∧ x.upper = a) ∧ x.e1 = a ∧ x.e2 = b ∧
      (freq = none → s.addRefs σ a b freq = (s.joined x freq, .ok s.w.ntr)) ∧
      (freq ≠ none → s.addRefs σ a b freq =
        (((s.joined x freq).enforce σ none).1, ((s.joined x freq).enforce σ none).2.map fun _ => s.w.ntr)) := by
  obtain ⟨x, h1, h2, h3, h4⟩ := newSub_ok ha hb freq
  have h4 : newSub a b freq s = (s.joined x freq, .ok s.w.ntr) := h4
  have hreg : (s.joined x freq).regSub s.w.ntr = s.joined x freq := by
    have e : (s.joined x freq).sub s.w.ntr = some x := by simp [SubW.joined, upd]
    simp only [regSub, e, refName_joined]
    have g : (s.joined x freq).w.g.addEdge (s.w.refName x.lower) (s.w.refName x.upper) s.w.ntr = (s.joined x freq).w.g := by
      refine Graph.addEdge_same _ (hs.sane.gok.addEdge _ _ _) _ _ _ ?_
      show (s.w.g.addEdge _ _ _).adj _ _ = _
      rw [Graph.adj_addEdge]; simp
    rw [g]
  refine ⟨x, h1, h2, h3, ?_, ?_⟩
  · rintro rfl
    simp only [addRefs, h4, hreg]
  · intro hf
    obtain ⟨f, rfl⟩ := Option.ne_none_iff_exists'.1 hf
    simp only [addRefs, h4, hreg]
    cases h : (s.joined x (some f)).enforce σ none with
    | mk s' r => cases r <;> rfl

theorem enforce_clean {s : SubW} (hs : Clean s) {σ : Ord'} (hσ : Shuffles σ) (trig : Option (Str × Str)) :
    SFrame s (s.enforce σ trig).1 ∧ Clean (s.enforce σ trig).1 := by
  obtain ⟨s', h1, h2⟩ := enforce_cases hσ trig hs
  rcases h2 with ⟨h2, _⟩ | ⟨h2, _⟩ <;> rw [h2] <;> exact ⟨h1, hs.frame h1⟩

/-- Setting the frequency of a transition between sublevels. -/
theorem setFrequency_sub {s : SubW} (hs : Clean s) (σ : Ord') {t : Nat} {x : SubT} (hx : s.sub t = some x) (f : ℚ) :
    s.setFrequency σ t f =
      SubW.enforce σ (some (s.w.refName x.e1, s.w.refName x.e2)) { s with w := s.w.setTr t { s.w.tr t with setFreq := some f } } := by
  have hu : s.isFixed x.upper = false := by
    have := (hs.sound t x hx).2.1
    cases h : x.upper with
    | fine i => rw [h] at this; exact this.elim
    | hyp j => exact hs.free _
    | zee k => exact hs.free _
  have e : ∀ r : Ref, (s.w.setTr t { s.w.tr t with setFreq := some f }).refName r = s.w.refName r := by
    intro r; cases r <;> rfl
  simp only [setFrequency, hx, hu, Bool.false_eq_true, false_and, and_false, if_false, e]

/-- Setting a frequency: the world before enforcement. -/
theorem setFrequency_eq {s : SubW} (hs : Clean s) (σ : Ord') (t : Nat) (f : ℚ) :
    ∃ s1, Clean s1 ∧ s1.sub = s.sub ∧ s1.w.g = s.w.g ∧ (s1 = s ∨ s1.w.tr = upd s.w.tr t { s.w.tr t with setFreq := some f }) ∧
      ((s.setFrequency σ t f).1 = s1 ∨ ∃ trig, s.setFrequency σ t f = s1.enforce σ trig) := by
  cases hx : s.sub t with
  | none =>
    by_cases hb : (s.w.tr t).built = true
    · set w1 := if truthy (s.w.tr t).setFreq = true ∧ (s.w.lv (s.w.tr t).upper).fixed = true ∧ (s.w.lv (s.w.tr t).lower).fixed = true
        then s.w.setFixed (s.w.tr t).upper false else s.w with hw1
      have c1 : Clean { s with w := w1 } := by
        rw [hw1]; split
        · exact hs.setFixed _ _
        · exact hs
      have htr : w1.tr = s.w.tr := by rw [hw1]; split <;> rfl
      have hg : w1.g = s.w.g := by rw [hw1]; split <;> rfl
      refine ⟨{ s with w := w1.setTr t { w1.tr t with setFreq := some f } }, Clean.setTr c1 t (some f), rfl, hg, .inr ?_, ?_⟩
      · simp only [World.setTr, htr]
      · simp only [setFrequency, hx, hb, if_true]
        rw [← hw1]
        split
        · exact .inr ⟨_, rfl⟩
        · exact .inl rfl
    · refine ⟨s, hs, rfl, rfl, .inl rfl, .inl ?_⟩
      simp only [setFrequency, hx, hb, if_false, Bool.false_eq_true]
  | some x =>
    exact ⟨{ s with w := s.w.setTr t { s.w.tr t with setFreq := some f } }, hs.setTr t (some f), rfl, rfl, .inr rfl,
      .inr ⟨_, setFrequency_sub hs σ hx f⟩⟩

theorem ReachableS.clean {s : SubW} (hr : ReachableS s) : Clean s := by
  induction hr with
  | start h => exact clean_of h
  | look key _ ih => exact ih.look (levelsGet_frame key _)
  | @add s σ a b freq _ hσ ha hb na nb ih =>
    obtain ⟨x, h1, _, _, h4, h5⟩ := addRefs_eq ih ha hb freq σ
    have hc : Clean (s.joined x freq) := by
      rcases h1 with ⟨e1, e2⟩ | ⟨e1, e2⟩
      · exact ih.joined (by rw [e1]; exact ha) (by rw [e2]; exact hb) (by rw [e1]; exact na) (by rw [e2]; exact nb) freq
      · exact ih.joined (by rw [e1]; exact hb) (by rw [e2]; exact ha) (by rw [e1]; exact nb) (by rw [e2]; exact na) freq
    by_cases hf : freq = none
    · rw [h4 hf]; exact hc
    · rw [h5 hf]; exact (enforce_clean hc hσ none).2
  | enforce σ trig _ hσ ih => exact (enforce_clean ih hσ trig).2
  | set σ t f _ hσ ih =>
    obtain ⟨s1, c1, _, _, _, h⟩ := setFrequency_eq ih σ t f
    rcases h with h | ⟨trig, h⟩
    · rw [h]; exact c1
    · rw [h]; exact (enforce_clean c1 hσ trig).2

theorem Clean.along {s : SubW} (hs : Clean s) {a b : Str} (hab : SetConn s.w a b) : s.w.g.lev a = none ↔ s.w.g.lev b = none := by
  induction hab with
  | refl => rfl
  | tail _ hbc ih =>
    obtain ⟨t, f, h⟩ := hbc
    rw [ih, hs.split _ _ t h.1, hs.split _ _ t (hs.sane.symm h).1]

/-! ## C172 -/

/-- A transition between two sublevels that has a frequency is among the atom's transitions. -/
def Poisoned (s : SubW) : Prop := ∃ n m t f, s.w.g.adj n m = some t ∧ (s.w.tr t).setFreq = some f ∧ n ≠ m ∧ s.sub t ≠ none

end SubW

open SubW

/-- The full claim C172: a transition added between two sublevels puts them the given frequency apart. -/
def C172_full : Prop := ∀ (w : World) (σ : Ord') (a b : Ref) (f : ℚ), Reachable w → Shuffles σ → Good w a → Good w b → 0 < f →
  ∃ s t ea eb, (of w).addRefs σ a b (some f) = (s, .ok t) ∧ s.w.refHz a = .ok ea ∧ s.w.refHz b = .ok eb ∧ |ea - eb| = f

/-- While a transition between sublevels has a frequency, `enforce_consistency()` raises `AttributeError`. -/
theorem C172_poisoned {s : SubW} (hr : ReachableS s) (hp : Poisoned s) {σ : Ord'} (hσ : Shuffles σ) :
    (s.enforce σ none).2 = .error .AttributeError := by
  obtain ⟨n, m, t, f, h1, h2, h3, h4⟩ := hp
  obtain ⟨s', _, h | h⟩ := enforce_cases hσ none hr.clean
  · rw [h.1]
  · exact absurd (h.2.2 n m t f ⟨h1, h2⟩ h3 (by simp)) h4

theorem SubW.Poisoned.frame {s s' : SubW} (hp : Poisoned s) (h : SFrame s s') : Poisoned s' := by
  obtain ⟨n, m, t, f, h1, h2, h3, h4⟩ := hp
  exact ⟨n, m, t, f, by rw [h.w.g]; exact h1, by rw [h.w.tr]; exact h2, h3, by rw [h.sub]; exact h4⟩

/-- Adding the transition with a frequency raises `AttributeError`, whatever the frequency, and leaves the transition with its frequency in the atom. -/
theorem C172_raises {s : SubW} (hr : ReachableS s) {σ : Ord'} (hσ : Shuffles σ) {a b : Ref} (ha : Good s.w a) (hb : Good s.w b)
    (na : s.w.g.lev (s.w.refName a) = none) (nb : s.w.g.lev (s.w.refName b) = none) (hne : s.w.refName a ≠ s.w.refName b) (f : ℚ) :
    (s.addRefs σ a b (some f)).2 = .error .AttributeError ∧
    (s.addRefs σ a b (some f)).1.w.g.adj (s.w.refName a) (s.w.refName b) = some s.w.ntr ∧
    ((s.addRefs σ a b (some f)).1.w.tr s.w.ntr).setFreq = some f ∧ Poisoned (s.addRefs σ a b (some f)).1 := by
  have hs := hr.clean
  obtain ⟨x, h1, _, _, _, h5⟩ := addRefs_eq hs ha hb (some f) σ
  have hc : Clean (s.joined x (some f)) := by
    rcases h1 with ⟨e1, e2⟩ | ⟨e1, e2⟩
    · exact hs.joined (by rw [e1]; exact ha) (by rw [e2]; exact hb) (by rw [e1]; exact na) (by rw [e2]; exact nb) _
    · exact hs.joined (by rw [e1]; exact hb) (by rw [e2]; exact ha) (by rw [e1]; exact nb) (by rw [e2]; exact na) _
  have hadj : (s.joined x (some f)).w.g.adj (s.w.refName a) (s.w.refName b) = some s.w.ntr := by
    show (s.w.g.addEdge _ _ _).adj _ _ = _
    rw [Graph.adj_addEdge]
    rcases h1 with ⟨e1, e2⟩ | ⟨e1, e2⟩ <;> simp [e1, e2]
  have hset : ((s.joined x (some f)).w.tr s.w.ntr).setFreq = some f := by simp [SubW.joined, upd]
  have hsub : (s.joined x (some f)).sub s.w.ntr ≠ none := by simp [SubW.joined, upd]
  rw [h5 (by simp)]
  have hfr := (enforce_clean hc hσ none).1
  refine ⟨?_, by simp only [hfr.w.g]; exact hadj, by simp only [hfr.w.tr]; exact hset, Poisoned.frame ⟨_, _, _, _, hadj, hset, hne, hsub⟩ hfr⟩
  obtain ⟨s', _, h | h⟩ := enforce_cases hσ none hc
  · simp only [h.1]; rfl
  · exact absurd (h.2.2 _ _ _ _ ⟨hadj, hset⟩ hne (by simp)) hsub

/-- The same with names. -/
theorem C172_named {s : SubW} (hr : ReachableS s) {σ : Ord'} (hσ : Shuffles σ) {a b : Str} {ra rb : Ref} {w1 w2 : World}
    (ga : levelsGet a s.w = (w1, .ok ra)) (gb : levelsGet b w1 = (w2, .ok rb)) (ha : Good w2 ra) (hb : Good w2 rb)
    (na : w2.g.lev (w2.refName ra) = none) (nb : w2.g.lev (w2.refName rb) = none) (hne : w2.refName ra ≠ w2.refName rb) (f : ℚ) :
    (s.addNames σ a b (some f)).2 = .error .AttributeError ∧ Poisoned (s.addNames σ a b (some f)).1 ∧ ReachableS (s.addNames σ a b (some f)).1 := by
  have r1 := hr.look a
  rw [ga] at r1
  have r2 := r1.look b
  simp only [gb] at r2
  have e : s.addNames σ a b (some f) = addRefs σ ra rb (some f) { s with w := w2 } := by simp only [addNames, ga, gb]
  rw [e]
  have h := C172_raises r2 hσ ha hb na nb hne f
  exact ⟨h.1, h.2.2.2, r2.add σ ra rb (some f) hσ ha hb na nb⟩

/-- Looking levels up, enforcing and setting frequencies leave it so. -/
theorem C172_stays {s : SubW} (hr : ReachableS s) (hp : Poisoned s) {σ : Ord'} (hσ : Shuffles σ) :
    (∀ key, Poisoned { s with w := (levelsGet key s.w).1 }) ∧ (∀ trig, Poisoned (s.enforce σ trig).1) ∧
    ∀ t f, Poisoned (s.setFrequency σ t f).1 := by
  have hs := hr.clean
  refine ⟨?_, fun trig => hp.frame (enforce_clean hs hσ trig).1, ?_⟩
  · intro key
    have l := levelsGet_frame key s.w
    obtain ⟨n, m, t, f, h1, h2, h3, h4⟩ := hp
    exact ⟨n, m, t, f, by simp only [l.g]; exact h1, by simp only [l.tr]; exact h2, h3, h4⟩
  · intro t f
    obtain ⟨s1, c1, e1, e2, e3, h⟩ := setFrequency_eq hs σ t f
    have p1 : Poisoned s1 := by
      rcases e3 with rfl | e3
      · exact hp
      · obtain ⟨n, m, t', f', h1, h2, h3, h4⟩ := hp
        by_cases ht : t' = t
        · exact ⟨n, m, t', f, by rw [e2]; exact h1, by rw [e3]; simp [upd, ht], h3, by rw [e1]; exact h4⟩
        · exact ⟨n, m, t', f', by rw [e2]; exact h1, by rw [e3]; simp only [upd, if_neg ht]; exact h2, h3, by rw [e1]; exact h4⟩
    rcases h with h | ⟨trig, h⟩
    · rw [h]; exact p1
    · rw [h]; exact p1.frame (enforce_clean c1 hσ trig).1

/-- Setting the frequency of a transition between sublevels raises too. -/
theorem C172_set {s : SubW} (hr : ReachableS s) {σ : Ord'} (hσ : Shuffles σ) {t : Nat} {x : SubT} (hx : s.sub t = some x)
    (ht : s.w.g.adj (s.w.refName x.e1) (s.w.refName x.e2) = some t) (hne : s.w.refName x.e1 ≠ s.w.refName x.e2) (f : ℚ) :
    (s.setFrequency σ t f).2 = .error .AttributeError ∧ Poisoned (s.setFrequency σ t f).1 := by
  have hs := hr.clean
  set s1 : SubW := { s with w := s.w.setTr t { s.w.tr t with setFreq := some f } } with hs1
  have c1 : Clean s1 := hs.setTr t (some f)
  have e := setFrequency_sub hs σ hx f
  rw [← hs1] at e
  have hset : (s1.w.tr t).setFreq = some f := by simp [hs1, World.setTr, upd]
  have hsub : s1.sub t ≠ none := by show s.sub t ≠ none; rw [hx]; simp
  have hed : SetEdge s1.w (s.w.refName x.e1) (s.w.refName x.e2) t f := ⟨ht, hset⟩
  rw [e]
  refine ⟨?_, Poisoned.frame ⟨_, _, t, f, hed.1, hed.2, hne, hsub⟩ (enforce_clean c1 hσ _).1⟩
  obtain ⟨s', _, h | h⟩ := enforce_cases hσ (some (s.w.refName x.e1, s.w.refName x.e2)) c1
  · rw [h.1]
  · exact absurd (h.2.2 _ _ t f hed hne (by rintro p hp; cases hp; exact ⟨.refl, t, f, hed⟩)) hsub

/-- Setting the frequency of a transition between levels works as if there were no transitions between sublevels. -/
theorem C172_elsewhere {s : SubW} (hr : ReachableS s) {σ : Ord'} (hσ : Shuffles σ) {t : Nat} (hx : s.sub t = none) (ht : InAtom s.w t)
    (hin : (s.w.lv (s.w.tr t).e1).inAtom = true) (f : ℚ) :
    ∃ s', s.setFrequency σ t f = (s', .ok ()) ∧ World.setFrequency σ t f s.w = (s'.w, .ok ()) ∧ s'.sub = s.sub := by
  have hs := hr.clean
  have hb := hs.sane.built _ _ t ht
  set w1 := if truthy (s.w.tr t).setFreq = true ∧ (s.w.lv (s.w.tr t).upper).fixed = true ∧ (s.w.lv (s.w.tr t).lower).fixed = true
    then s.w.setFixed (s.w.tr t).upper false else s.w with hw1
  have c1 : Clean { s with w := w1 } := by
    rw [hw1]; split
    · exact hs.setFixed _ _
    · exact hs
  have htr : w1.tr = s.w.tr := by rw [hw1]; split <;> rfl
  have hg : w1.g = s.w.g := by rw [hw1]; split <;> rfl
  have hlv : ∀ i, (w1.lv i).term = (s.w.lv i).term ∧ (w1.lv i).inAtom = (s.w.lv i).inAtom := by
    intro i
    rw [hw1]; split
    · simp only [World.setFixed, World.setLv, upd]; split
      · rename_i h; rw [h]; exact ⟨rfl, rfl⟩
      · exact ⟨rfl, rfl⟩
    · exact ⟨rfl, rfl⟩
  set w2 := w1.setTr t { w1.tr t with setFreq := some f } with hw2
  have c2 : Clean { s with w := w2 } := Clean.setTr c1 t (some f)
  have he1 : (w2.tr t).e1 = (s.w.tr t).e1 ∧ (w2.tr t).e2 = (s.w.tr t).e2 := by simp [hw2, World.setTr, upd, htr]
  have hnm : ∀ i, w2.lname i = s.w.lname i := by
    intro i
    show (w1.lv i).term.name = (s.w.lv i).term.name
    rw [(hlv i).1]
  have hin2 : (w2.lv (w2.tr t).e1).inAtom = true := by
    rw [he1.1]
    show (w1.lv _).inAtom = true
    rw [(hlv _).2]; exact hin
  have ea : s.setFrequency σ t f = SubW.enforce σ (some (w2.lname (w2.tr t).e1, w2.lname (w2.tr t).e2)) { s with w := w2 } := by
    simp only [SubW.setFrequency, hx, hb, if_true]
    rw [← hw1, ← hw2, if_pos hin2]
  have eb : World.setFrequency σ t f s.w = World.enforce σ (some (w2.lname (w2.tr t).e1, w2.lname (w2.tr t).e2)) w2 := by
    simp only [World.setFrequency, hb, if_true]
    rw [← hw1, ← hw2, if_pos hin2]
  rw [ea, eb]
  obtain ⟨s', hf, h | h⟩ := enforce_cases hσ (some (w2.lname (w2.tr t).e1, w2.lname (w2.tr t).e2)) c2
  · exfalso
    obtain ⟨_, n, m, t', f', q1, q2, q3⟩ := h
    have q3 := q3 _ rfl
    have bn := (c2.split n m t' q1.1).2 q2
    have b1 := (c2.along q3).2 bn
    rw [he1.1, hnm] at b1
    have b1 : s.w.g.lev (s.w.lname (s.w.tr t).e1) = none := by
      have e : w2.g = s.w.g := hg
      simp only [e] at b1
      exact b1
    exact (hs.split _ _ t ht).1 b1 hx
  · exact ⟨s', h.1, h.2.1, hf.sub⟩

/-- The frequency of a transition whose first level is in no atom: `AttributeError`, with the frequency kept and no energy moved. -/
theorem C172_outside (s : SubW) (σ : Ord') {t : Nat} (hx : s.sub t = none) (hb : (s.w.tr t).built = true)
    (hout : (s.w.lv (s.w.tr t).e1).inAtom = false) (f : ℚ) : (s.setFrequency σ t f).2 = .error .AttributeError ∧
    ((s.setFrequency σ t f).1.w.tr t).setFreq = some f ∧ ∀ i, ((s.setFrequency σ t f).1.w.lv i).levelHz = (s.w.lv i).levelHz := by
  set w1 := if truthy (s.w.tr t).setFreq = true ∧ (s.w.lv (s.w.tr t).upper).fixed = true ∧ (s.w.lv (s.w.tr t).lower).fixed = true
    then s.w.setFixed (s.w.tr t).upper false else s.w with hw1
  have htr : w1.tr = s.w.tr := by rw [hw1]; split <;> rfl
  have hlv : ∀ i, (w1.lv i).levelHz = (s.w.lv i).levelHz ∧ (w1.lv i).inAtom = (s.w.lv i).inAtom := by
    intro i
    rw [hw1]; split
    · simp only [World.setFixed, World.setLv, upd]; split
      · rename_i h; rw [h]; exact ⟨rfl, rfl⟩
      · exact ⟨rfl, rfl⟩
    · exact ⟨rfl, rfl⟩
  set w2 := w1.setTr t { w1.tr t with setFreq := some f } with hw2
  have he1 : (w2.tr t).e1 = (s.w.tr t).e1 := by simp [hw2, World.setTr, upd, htr]
  have hin2 : ¬(w2.lv (w2.tr t).e1).inAtom = true := by
    rw [he1]
    show ¬(w1.lv _).inAtom = true
    rw [(hlv _).2, hout]; simp
  have ea : s.setFrequency σ t f = ({ s with w := w2 }, .error .AttributeError) := by
    simp only [SubW.setFrequency, hx, hb, if_true]
    rw [← hw1, ← hw2, if_neg hin2]
  rw [ea]
  exact ⟨rfl, by simp [hw2, World.setTr, upd], fun i => (hlv i).1⟩

/-- Without a frequency the transition is added: it is listed, every energy and every level stay as they are. -/
theorem C172_quiet {s : SubW} (hr : ReachableS s) (σ : Ord') {a b : Ref} (ha : Good s.w a) (hb : Good s.w b) :
    ∃ s', s.addRefs σ a b none = (s', .ok s.w.ntr) ∧ s'.w.g.adj (s.w.refName a) (s.w.refName b) = some s.w.ntr ∧ s.w.ntr ∈ s'.w.transVals ∧
      (∀ r, s'.w.refHz r = s.w.refHz r) ∧ ∀ n, s'.w.g.levelAttrs.get? n = s.w.g.levelAttrs.get? n := by
  have hs := hr.clean
  obtain ⟨x, h1, _, _, h4, _⟩ := addRefs_eq hs ha hb none σ
  have hadj : (s.joined x none).w.g.adj (s.w.refName a) (s.w.refName b) = some s.w.ntr := by
    show (s.w.g.addEdge _ _ _).adj _ _ = _
    rw [Graph.adj_addEdge]
    rcases h1 with ⟨e1, e2⟩ | ⟨e1, e2⟩ <;> simp [e1, e2]
  have hok : (s.joined x none).w.g.Ok := hs.sane.gok.addEdge _ _ _
  refine ⟨_, h4 rfl, hadj, ?_, ?_, ?_⟩
  · show s.w.ntr ∈ (s.joined x none).w.g.edges.vals
    rcases Graph.before_total (s.joined x none).w.g (s.w.refName a) (s.w.refName b) with hb' | hb'
    · exact List.mem_map.2 ⟨_, (Graph.mem_edges hok _ _ _).2 ⟨hadj, hb'⟩, rfl⟩
    · exact List.mem_map.2 ⟨_, (Graph.mem_edges hok _ _ _).2 ⟨by rw [hok.symm]; exact hadj, hb'⟩, rfl⟩
  · intro r; cases r <;> rfl
  · intro n
    rw [Graph.get?_levelAttrs _ hok.nodup, Graph.get?_levelAttrs _ hs.sane.gok.nodup]
    exact Graph.lev_addEdge _ _ _ _ _

/-- Adding the transition once more without a frequency replaces it: when it was the only one of its kind with a frequency,
`enforce_consistency()` works again. -/
theorem C172_cured {s : SubW} (hr : ReachableS s) {σ : Ord'} (hσ : Shuffles σ) {a b : Ref} (ha : Good s.w a) (hb : Good s.w b)
    (na : s.w.g.lev (s.w.refName a) = none) (nb : s.w.g.lev (s.w.refName b) = none)
    (only : ∀ n m t f, s.w.g.adj n m = some t → (s.w.tr t).setFreq = some f → s.sub t ≠ none →
      (n = s.w.refName a ∧ m = s.w.refName b) ∨ (n = s.w.refName b ∧ m = s.w.refName a)) (trig : Option (Str × Str)) :
    ∃ s', (s.addRefs σ a b none).1.enforce σ trig = (s', .ok ()) := by
  have hs := hr.clean
  obtain ⟨x, h1, _, _, h4, _⟩ := addRefs_eq hs ha hb none σ
  rw [h4 rfl]
  have hc : Clean (s.joined x none) := by
    rcases h1 with ⟨e1, e2⟩ | ⟨e1, e2⟩
    · exact hs.joined (by rw [e1]; exact ha) (by rw [e2]; exact hb) (by rw [e1]; exact na) (by rw [e2]; exact nb) _
    · exact hs.joined (by rw [e1]; exact hb) (by rw [e2]; exact ha) (by rw [e1]; exact nb) (by rw [e2]; exact na) _
  obtain ⟨s', _, h | h⟩ := enforce_cases hσ trig hc
  · exfalso
    obtain ⟨_, n, m, t, f, q1, q2, _⟩ := h
    have q3 : (s.w.g.addEdge (s.w.refName x.lower) (s.w.refName x.upper) s.w.ntr).adj n m = some t := q1.1
    have q4 := q1.2
    rw [Graph.adj_addEdge] at q3
    split at q3
    · cases q3
      simp [SubW.joined, upd] at q4
    · rename_i hno
      have hlt := Nat.ne_of_lt (hs.sane.lt n m t q3)
      have r1 : (s.joined x none).sub t = s.sub t := by simp [SubW.joined, upd, hlt]
      have r2 : ((s.joined x none).w.tr t) = s.w.tr t := by simp [SubW.joined, upd, hlt]
      rw [r1] at q2
      rw [r2] at q4
      refine hno ?_
      rcases h1 with ⟨e1, e2⟩ | ⟨e1, e2⟩ <;> rcases only n m t f q3 q4 q2 with ⟨rfl, rfl⟩ | ⟨rfl, rfl⟩ <;> simp [e1, e2]
  · exact ⟨s', h.1⟩

/-- The pair of names is a key of `atom.transitions` from then on, so that adding it by name once more looks it up (atom.py:946-948); the lookup goes by the
names of the two levels, and raises `KeyError` when there is no transition between them. -/
theorem C172_again {s : SubW} (hr : ReachableS s) (W : Strengths.Wig) (sd : SubDicts) {n m : Str} {F F' : ℚ} (hn : '=' ∉ n) (hF : IsHalfInt F)
    (hF' : IsHalfInt F') {w1 w2 : World} {ra rb : Ref} (ga : levelsGet (hypText n F) s.w = (w1, .ok ra))
    (gb : levelsGet (hypText m F') w1 = (w2, .ok rb)) {ea eb : ℚ} (ha : w2.refHz ra = .ok ea) (hb : w2.refHz rb = .ok eb) (no : s.w.g.adj n m = none) :
    (transLookup W sd (hypText n F) (hypText m F') s.w).2 = .error .KeyError := by
  have hs := hr.clean
  have l1 := levelsGet_frame (hypText n F) s.w
  have l2 := levelsGet_frame (hypText m F') w1
  rw [ga] at l1
  rw [gb] at l2
  have hg : w2.g = s.w.g := l2.g.trans l1.g
  have key : ∀ u v, (u = n ∧ v = m) ∨ (u = m ∧ v = n) → PyM.lift (w2.g.edges.getE (u, v)) w2 = (w2, .error .KeyError) := by
    intro u v huv
    have : w2.g.edges.get? (u, v) = none := by
      rw [hg, Graph.get?_edges hs.sane.gok]
      split
      · rcases huv with ⟨rfl, rfl⟩ | ⟨rfl, rfl⟩
        · exact no
        · rw [hs.sane.gok.symm]; exact no
      · rfl
    rw [Dict.getE_err this]; rfl
  rw [transLookup_of W sd ga gb ha hb]
  split
  · rw [transPath_hyp W sd hF' hF (isIn_hypText hn hF), PyM.bind_err (key m n (.inr ⟨rfl, rfl⟩))]
  · rw [transPath_hyp W sd hF hF' (isIn_hypText hn hF), PyM.bind_err (key n m (.inl ⟨rfl, rfl⟩))]

/-! ### Concrete cases -/

/-- Nuclear spin 1/2, the levels `g` at 100 and `a` at 500 with both their hyperfine levels. -/
def subDemo : World := runAll hfOps (emptyAtom (1 / 2) 0)

theorem subDemo_reachable : Reachable subDemo := (Reachable.empty _ _).runAll (by decide +kernel)

theorem subDemo_good : Good subDemo (.hyp 0) ∧ Good subDemo (.hyp 3) :=
  ⟨⟨by decide +kernel, 97, by decide +kernel⟩, ⟨by decide +kernel, 502, by decide +kernel⟩⟩

/-- The transition `g F=0` to `a F=1`, 405 apart, added with frequency 400. -/
def subPoison : SubW := ((of subDemo).addRefs idOrd (.hyp 0) (.hyp 3) (some 400)).1

theorem subPoison_reachable : ReachableS subPoison :=
  (ReachableS.start subDemo_reachable).add idOrd _ _ _ idOrd_shuffles subDemo_good.1 subDemo_good.2 (by decide +kernel) (by decide +kernel)

example : (of subDemo).w.refName (.hyp 0) = "g 2S1/2 F=0".toList ∧ (of subDemo).w.refName (.hyp 3) = "a 2S1/2 F=1".toList ∧
    subDemo.g.lev (subDemo.refName (.hyp 0)) = none ∧ subDemo.g.lev (subDemo.refName (.hyp 3)) = none ∧
    ((of subDemo).addRefs idOrd (.hyp 0) (.hyp 3) (some 400)).2 = .error .AttributeError := by decide +kernel

theorem subPoison_poisoned : Poisoned subPoison :=
  (C172_raises (.start subDemo_reachable) idOrd_shuffles subDemo_good.1 subDemo_good.2 (by decide +kernel) (by decide +kernel) (by decide +kernel)
    400).2.2.2

/-- A transition between two levels that have not been added to the atom. -/
example : let s := of (runAll [.newLevel (demoTerm 'g') 100 2 4 0 0 none, .newLevel (demoTerm 'a') 500 2 8 0 0 none,
      .newTrans 0 1 none .none none] (emptyAtom (1 / 2) 0))
    s.sub 0 = none ∧ (s.w.tr 0).built = true ∧ (s.w.lv (s.w.tr 0).e1).inAtom = false ∧ s.w.ntr = 1 := by decide +kernel

/-- From then on enforcement raises, in every order of iteration; so does setting the frequency of the transition. -/
example : (subPoison.enforce revOrd none).2 = .error .AttributeError := C172_poisoned subPoison_reachable subPoison_poisoned revOrd_shuffles

example : subPoison.sub 0 = some ⟨.hyp 0, .hyp 3, .hyp 0, .hyp 3⟩ := by decide +kernel

/-- By name. -/
example : let w := subDemo
    levelsGet "g 2S1/2 F=0".toList w = ((levelsGet "g 2S1/2 F=0".toList w).1, .ok (.hyp 0)) ∧
    (levelsGet "a 2S1/2 F=1".toList (levelsGet "g 2S1/2 F=0".toList w).1).2 = .ok (.hyp 3) ∧
    ((of w).addNames revOrd "g 2S1/2 F=0".toList "a 2S1/2 F=1".toList (some 400)).2 = .error .AttributeError ∧
    ((of w).addNames revOrd "g 2S1/2 F=0".toList "a 2S1/2 F=1".toList (some 400)).1.w.transKeys =
      [("g 2S1/2 F=0".toList, "a 2S1/2 F=1".toList)] := by
  refine ⟨Prod.ext rfl (by decide +kernel), by decide +kernel, by decide +kernel, by decide +kernel⟩

/-- In this atom there is no transition between `g` and `a`, and the names are found. -/
example : hypText (demoName 'g') 0 = "g 2S1/2 F=0".toList ∧ hypText (demoName 'a') 1 = "a 2S1/2 F=1".toList ∧ '=' ∉ demoName 'g' ∧
    subPoison.w.g.adj (demoName 'g') (demoName 'a') = none ∧ (levelsGet (hypText (demoName 'g') 0) subPoison.w).2 = .ok (.hyp 0) ∧
    subPoison.w.transKeys = [("g 2S1/2 F=0".toList, "a 2S1/2 F=1".toList)] := by decide +kernel

/-- Without a frequency: listed, no energy changes. -/
example : ((of subDemo).addRefs idOrd (.hyp 0) (.hyp 3) none).2 = .ok 0 ∧
    ((of subDemo).addRefs idOrd (.hyp 0) (.hyp 3) none).1.w.transKeys = [("g 2S1/2 F=0".toList, "a 2S1/2 F=1".toList)] ∧
    ((of subDemo).addRefs idOrd (.hyp 0) (.hyp 3) none).1.w.levelNames = subDemo.levelNames := by decide +kernel

/-- Added once more without a frequency. -/
example : (subPoison.addRefs idOrd (.hyp 0) (.hyp 3) none).2 = .ok 1 ∧
    ((subPoison.addRefs idOrd (.hyp 0) (.hyp 3) none).1.enforce revOrd none).2 = .ok () := by decide +kernel

/-- The atom with a transition between the two levels, 1000 apart in the end, and the one between the two sublevels. -/
def subBoth : SubW :=
  ((of (runAll (hfOps ++ [.newTrans 0 1 none .none none, .addTransition idOrd 0]) (emptyAtom (1 / 2) 0))).addRefs idOrd (.hyp 0) (.hyp 3) (some 400)).1

theorem subBoth_reachable : ReachableS subBoth :=
  (ReachableS.start ((Reachable.empty _ _).runAll (by decide +kernel))).add idOrd _ _ _ idOrd_shuffles
    ⟨by decide +kernel, 97, by decide +kernel⟩ ⟨by decide +kernel, 502, by decide +kernel⟩ (by decide +kernel) (by decide +kernel)

/-- The frequency of the transition between the levels can be set all the same. -/
example : ∃ s', subBoth.setFrequency revOrd 0 1000 = (s', .ok ()) ∧ World.setFrequency revOrd 0 1000 subBoth.w = (s'.w, .ok ()) ∧ s'.sub = subBoth.sub :=
  C172_elsewhere subBoth_reachable revOrd_shuffles (by decide +kernel) (by decide +kernel) (by decide +kernel) 1000

example : (subBoth.setFrequency revOrd 0 1000).1.w.freqHz 0 = 1000 ∧ (subBoth.setFrequency revOrd 1 405).2 = .error .AttributeError ∧
    (subBoth.enforce idOrd none).2 = .error .AttributeError := by decide +kernel

/-- The order in which the nodes of a component are gone through reversed. -/
def bareOrd : Ord'
  | .low _, l => l.reverse
  | _, l => l

theorem bareOrd_shuffles : Shuffles bareOrd := by
  intro k l
  cases k <;> first | exact l.reverse_perm | exact .refl _

theorem bindOkInv {α β : Type} {x : Py α} {f : α → Py β} {b : β} (h : (x >>= f) = .ok b) : ∃ a, x = .ok a ∧ f a = .ok b := by
  rcases x with e | a
  · cases h
  · exact ⟨a, rfl, h⟩

theorem isFixed_pin (s : SubW) (r r' : Ref) : (s.pin r).isFixed r' = (decide (r' = r) || s.isFixed r') := by
  cases r with
  | fine i =>
    cases r' with
    | fine i' =>
      show ((s.w.setFixed i true).lv i').fixed = _
      unfold World.setFixed World.setLv upd
      by_cases h : i' = i
      · subst h
        simp
      · simp [h, isFixed]
    | hyp j => simp [pin, isFixed]
    | zee k => simp [pin, isFixed]
  | hyp j =>
    cases r' with
    | fine i' => simp [pin, isFixed]
    | hyp j' => by_cases h : j' = j <;> simp [pin, isFixed, h]
    | zee k => simp [pin, isFixed]
  | zee k =>
    cases r' with
    | fine i' => simp [pin, isFixed]
    | hyp j' => simp [pin, isFixed]
    | zee k' => by_cases h : k' = k <;> simp [pin, isFixed, h]

theorem isFixed_putHz {s s' : SubW} {r : Ref} {v : ℚ} (h : s.putHz r v = .ok s') (r' : Ref) : s'.isFixed r' = s.isFixed r' := by
  cases r with
  | fine i =>
    obtain rfl := Except.ok.inj h
    cases r' with
    | fine i' =>
      show ((s.w.setE i v).lv i').fixed = (s.w.lv i').fixed
      unfold World.setE World.setLv upd
      by_cases e : i' = i
      · subst e
        simp
      · simp [e]
    | hyp j => rfl
    | zee k => rfl
  | hyp j => cases h
  | zee k => cases h

theorem isFixed_step {s s' : SubW} {l u : Ref} {f : ℚ} (h : s.step l u f = .ok s') (r : Ref) : s'.isFixed r = s.isFixed r := by
  unfold step at h
  obtain ⟨b, -, h⟩ := bindOkInv h
  split_ifs at h
  · obtain rfl := Except.ok.inj h
    cases r <;> rfl
  · obtain ⟨e, -, h⟩ := bindOkInv h
    exact isFixed_putHz h r
  · obtain ⟨e, -, h⟩ := bindOkInv h
    exact isFixed_putHz h r

/-- C172: when a transition of a sublevel is enforced without an exception its two ends are fixed, and no other level or sublevel gains or loses the mark. -/
theorem C172_fixed {s s' : SubW} {u v : Str} {t : Nat} {x : SubT} (ht : s.w.g.adj u v = some t) (hx : s.sub t = some x) (h : SubW.enfEdge u v s = (s', .ok ())) (r : Ref) :
    s'.isFixed r = true ↔ r = x.lower ∨ r = x.upper ∨ s.isFixed r = true := by
  unfold SubW.enfEdge at h
  simp only [ht, hx] at h
  rcases hf : (s.w.tr t).setFreq with _ | f
  · rw [hf] at h
    cases congrArg Prod.snd h
  · rw [hf] at h
    simp only at h
    rcases hs : s.step x.lower x.upper f with e | s1
    · rw [hs] at h
      cases congrArg Prod.snd h
    · rw [hs] at h
      obtain rfl := congrArg Prod.fst h
      show ((s1.pin x.upper).pin x.lower).isFixed r = true ↔ _
      rw [isFixed_pin, isFixed_pin, isFixed_step hs]
      simp

/-- A transition between a sublevel and a level: whether it can be added depends on the order in which the nodes come. -/
theorem C172_mixed : ((of subDemo).addRefs idOrd (.hyp 0) (.fine 1) (some 400)).2 = .error .AttributeError ∧
    ((of subDemo).addRefs bareOrd (.hyp 0) (.fine 1) (some 400)).2 = .ok 0 ∧
    ((of subDemo).addRefs bareOrd (.hyp 0) (.fine 1) (some 400)).1.w.eHz 1 = 497 := by decide +kernel

/-- One transition between a sublevel `r` and a level `i` during enforcement: only the level can be moved. It is when the sublevel is below and the level has
not been pinned, or when the sublevel is above and has been pinned and the level has not; it is put at the distance `f`. With the sublevel below and the
level pinned, or the sublevel above and not pinned, `AttributeError` is raised. -/
theorem C172_moves (s : SubW) {r : Ref} (hr : Made s.w r) {e : ℚ} (he : s.w.refHz r = .ok e) (i : Nat) (f : ℚ) :
    ((s.w.lv i).fixed = false → ∃ s', s.step r (.fine i) f = .ok s' ∧ s'.w.eHz i = e + f ∧ ∀ j, j ≠ i → s'.w.eHz j = s.w.eHz j) ∧
    (s.fixed r = false → (s.w.lv i).fixed = true → s.step r (.fine i) f = .error .AttributeError) ∧
    (s.fixed r = true → (s.w.lv i).fixed = false → ∃ s', s.step (.fine i) r f = .ok s' ∧ s'.w.eHz i = e - f ∧ ∀ j, j ≠ i → s'.w.eHz j = s.w.eHz j) ∧
    (s.fixed r = false → s.step (.fine i) r f = .error .AttributeError) := by
  have fix : s.isFixed r = s.fixed r := by
    cases r with
    | fine i => exact hr.elim
    | hyp j => rfl
    | zee k => rfl
  have put : ∀ q, s.putHz r q = .error .AttributeError := by
    intro q
    cases r with
    | fine i => exact hr.elim
    | hyp j => rfl
    | zee k => rfl
  have fi : s.isFixed (.fine i) = (s.w.lv i).fixed := rfl
  have set : ∀ v : ℚ, (s.w.setE i v).eHz i = v ∧ ∀ j, j ≠ i → (s.w.setE i v).eHz j = s.w.eHz j := by
    intro v
    refine ⟨by simp [World.setE, World.setLv, World.eHz], fun j hj => by simp [World.setE, World.setLv, World.eHz, upd_ne _ _ _ hj]⟩
  refine ⟨fun h => ⟨{ s with w := s.w.setE i (e + f) }, ?_, set (e + f)⟩, fun h1 h2 => ?_,
    fun h1 h2 => ⟨{ s with w := s.w.setE i (e - f) }, ?_, set (e - f)⟩, fun h => ?_⟩
  · simp only [step, fix, fi, h, he, Bool.and_false, bind, Except.bind, Bool.false_eq_true, if_false]
    rfl
  · simp only [step, fix, fi, h1, h2, Bool.false_and, bind, Except.bind, Bool.false_eq_true, if_false, if_true, World.refHz]
    exact put _
  · simp only [step, fix, fi, h1, h2, he, Bool.false_and, bind, Except.bind, Bool.false_eq_true, if_false, if_true]
    rfl
  · simp only [step, fix, fi, h, Bool.and_false, bind, Except.bind, Bool.false_eq_true, if_false, World.refHz]
    exact put _

/-- The atom of `C172_mixed`, before the marks. -/
def unpinned : SubW :=
  let s := ((of subDemo).addRefs bareOrd (.hyp 0) (.fine 1) (some 400)).1
  { s with w := s.w.setFixed 1 false, fixed := fun _ => false }

example : unpinned.w.g.adj (unpinned.w.hFull 0) (unpinned.w.lname 1) = some 0 ∧ (unpinned.sub 0).isSome = true ∧
    (SubW.enfEdge (unpinned.w.hFull 0) (unpinned.w.lname 1) unpinned).2 = .ok () ∧
    (SubW.enfEdge (unpinned.w.hFull 0) (unpinned.w.lname 1) unpinned).1.isFixed (.hyp 0) = true ∧
    (SubW.enfEdge (unpinned.w.hFull 0) (unpinned.w.lname 1) unpinned).1.isFixed (.fine 1) = true ∧
    (SubW.enfEdge (unpinned.w.hFull 0) (unpinned.w.lname 1) unpinned).1.isFixed (.hyp 3) = false := by decide +kernel

/-- The claim is false. -/
theorem C172_fails : ¬C172_full := by
  intro h
  obtain ⟨s, t, ea, eb, h1, _⟩ := h subDemo idOrd (.hyp 0) (.hyp 3) 400 subDemo_reachable idOrd_shuffles subDemo_good.1 subDemo_good.2 (by norm_num)
  have := (C172_raises (.start subDemo_reachable) idOrd_shuffles subDemo_good.1 subDemo_good.2 (by decide +kernel) (by decide +kernel)
    (by decide +kernel) 400).1
  rw [h1] at this
  cases this

end AtomTk
