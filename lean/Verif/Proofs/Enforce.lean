import Verif.Proofs.History

/-! # The enforcement of set frequencies -/

namespace AtomTk
open Util
namespace World

/-- Graph and transitions are the same, levels differ in energy and pinning only. -/
structure EFrame (w w' : World) : Prop where
  g : w'.g = w.g
  tr : w'.tr = w.tr
  ntr : w'.ntr = w.ntr
  nlv : w'.nlv = w.nlv
  I : w'.I = w.I
  B : w'.B = w.B
  hf : w'.hf = w.hf
  zl : w'.zl = w.zl
  lalias : w'.lalias = w.lalias
  talias : w'.talias = w.talias
  lv : ∀ i, ∃ E b, w'.lv i = { w.lv i with levelHz := E, fixed := b }

theorem EFrame.refl (w : World) : EFrame w w := ⟨rfl, rfl, rfl, rfl, rfl, rfl, rfl, rfl, rfl, rfl, fun _ => ⟨_, _, rfl⟩⟩

theorem EFrame.trans (a b c : World) (h1 : EFrame a b) (h2 : EFrame b c) : EFrame a c := by
  refine ⟨h2.g.trans h1.g, h2.tr.trans h1.tr, h2.ntr.trans h1.ntr, h2.nlv.trans h1.nlv, h2.I.trans h1.I,
    h2.B.trans h1.B, h2.hf.trans h1.hf, h2.zl.trans h1.zl, h2.lalias.trans h1.lalias, h2.talias.trans h1.talias, ?_⟩
  intro i
  obtain ⟨E, b, h⟩ := h1.lv i
  obtain ⟨E', b', h'⟩ := h2.lv i
  exact ⟨E', b', by rw [h', h]⟩

theorem EFrame.frame {w w' : World} (h : EFrame w w') : Frame w w' := by
  refine ⟨h.nlv, h.ntr, h.g, ?_, ?_, ?_⟩
  · intro i; obtain ⟨E, b, hE⟩ := h.lv i; rw [hE]
  · intro i; obtain ⟨E, b, hE⟩ := h.lv i; rw [hE]
  · intro t; rw [h.tr]; exact ⟨rfl, rfl, rfl, rfl, rfl⟩

theorem EFrame.setEdge {w w' : World} (h : EFrame w w') (u v : Str) (t : Nat) (f : ℚ) :
    SetEdge w' u v t f ↔ SetEdge w u v t f := by unfold SetEdge; rw [h.g, h.tr]

/-! ## The set graph -/

theorem SetEdge.symm {w : World} (hw : WF w) {u v : Str} {t : Nat} {f : ℚ} (h : SetEdge w u v t f) :
    SetEdge w v u t f := ⟨by rw [hw.gok.symm]; exact h.1, h.2⟩

theorem setEdgesL_spec (w : World) (l : List ((Str × Str) × Nat)) (hb : ∀ p ∈ l, (w.tr p.2).built = true) :
    ∃ es, setEdgesL w l = .ok es ∧ ∀ e, e ∈ es ↔ ∃ t, (e, t) ∈ l ∧ (w.tr t).setFreq.isSome = true := by
  induction l with
  | nil => exact ⟨[], rfl, by simp⟩
  | cons p rest ih =>
    obtain ⟨e, t⟩ := p
    obtain ⟨es, h1, h2⟩ := ih (fun p hp => hb p (by simp [hp]))
    have h0 := hb (e, t) (by simp)
    simp only at h0
    by_cases hs : (w.tr t).setFreq.isSome = true
    · refine ⟨e :: es, ?_, ?_⟩
      · unfold setEdgesL; rw [if_pos h0, h1]; simp [hs, bind, Except.bind]
      · intro e'
        simp only [List.mem_cons, h2]
        constructor
        · rintro (rfl | ⟨t', ht, hs'⟩)
          · exact ⟨t, .inl rfl, hs⟩
          · exact ⟨t', .inr ht, hs'⟩
        · rintro ⟨t', ht | ht, hs'⟩
          · simp only [Prod.mk.injEq] at ht; exact .inl ht.1
          · exact .inr ⟨t', ht, hs'⟩
    · refine ⟨es, ?_, ?_⟩
      · unfold setEdgesL; rw [if_pos h0, h1]; simp [hs, bind, Except.bind]
      · intro e'
        simp only [List.mem_cons, h2]
        constructor
        · rintro ⟨t', ht, hs'⟩; exact ⟨t', .inr ht, hs'⟩
        · rintro ⟨t', ht | ht, hs'⟩
          · simp only [Prod.mk.injEq] at ht; rw [ht.2] at hs'; exact absurd hs' hs
          · exact ⟨t', ht, hs'⟩

theorem WF.setEdges {w : World} (hw : WF w) :
    ∃ es, w.setEdges = .ok es ∧ ∀ u v, (u, v) ∈ es ↔ (∃ t f, SetEdge w u v t f) ∧ w.g.Before u v := by
  have hb : ∀ p ∈ w.g.edges, (w.tr p.2).built = true := by
    rintro ⟨⟨u, v⟩, t⟩ hp
    have := (Graph.mem_edges hw.gok u v t).1 hp
    exact (hw.edge u v t this.1).2.1
  obtain ⟨es, h1, h2⟩ := setEdgesL_spec w w.g.edges hb
  refine ⟨es, h1, ?_⟩
  intro u v
  rw [h2]
  constructor
  · rintro ⟨t, ht, hs⟩
    obtain ⟨ha, hbf⟩ := (Graph.mem_edges hw.gok u v t).1 ht
    obtain ⟨f, hf⟩ := Option.isSome_iff_exists.1 hs
    exact ⟨⟨t, f, ha, hf⟩, hbf⟩
  · rintro ⟨⟨t, f, ha, hf⟩, hbf⟩
    exact ⟨t, (Graph.mem_edges hw.gok u v t).2 ⟨ha, hbf⟩, by rw [hf]; rfl⟩

theorem mem_endpoints (es : List (Str × Str)) (n : Str) : n ∈ endpoints es ↔ ∃ m, (n, m) ∈ es ∨ (m, n) ∈ es := by
  induction es with
  | nil => simp [endpoints]
  | cons p rest ih =>
    obtain ⟨u, v⟩ := p
    simp only [endpoints, List.mem_dedup, List.mem_append, List.mem_cons, List.not_mem_nil, or_false, ih, Prod.mk.injEq]
    constructor
    · rintro ((rfl | rfl) | ⟨m, h | h⟩)
      · exact ⟨v, .inl (.inl ⟨rfl, rfl⟩)⟩
      · exact ⟨u, .inr (.inl ⟨rfl, rfl⟩)⟩
      · exact ⟨m, .inl (.inr h)⟩
      · exact ⟨m, .inr (.inr h)⟩
    · rintro ⟨m, (⟨rfl, rfl⟩ | h) | (⟨rfl, rfl⟩ | h)⟩
      · exact .inl (.inl rfl)
      · exact .inr ⟨m, .inl h⟩
      · exact .inl (.inr rfl)
      · exact .inr ⟨m, .inr h⟩

theorem nodup_endpoints (es : List (Str × Str)) : (endpoints es).Nodup := by
  cases es with
  | nil => simp [endpoints]
  | cons p rest => obtain ⟨u, v⟩ := p; exact List.nodup_dedup _

/-- What the list of set edges has to be. -/
def EsOk (w : World) (es : List (Str × Str)) : Prop :=
  ∀ u v, (u, v) ∈ es ↔ (∃ t f, SetEdge w u v t f) ∧ w.g.Before u v

theorem mem_subNbrs {w : World} (hw : WF w) {es : List (Str × Str)} (hes : EsOk w es) (n m : Str) :
    m ∈ subNbrs w.g es n ↔ ∃ t f, SetEdge w n m t f := by
  unfold subNbrs
  cases hr : w.g.get? n with
  | none =>
    simp only [List.not_mem_nil, false_iff]
    rintro ⟨t, f, h, _⟩
    unfold Graph.adj at h
    rw [hr] at h
    simp at h
  | some r =>
    simp only [List.mem_filter, Bool.or_eq_true, decide_eq_true_eq, hes n m, hes m n]
    constructor
    · rintro ⟨_, ⟨h, _⟩ | ⟨⟨t, f, h⟩, _⟩⟩
      · exact h
      · exact ⟨t, f, h.symm hw⟩
    · rintro ⟨t, f, h⟩
      refine ⟨?_, ?_⟩
      · have h1 := h.1
        unfold Graph.adj at h1
        rw [hr] at h1
        exact (Dict.get?_isSome r.nbrs m).1 ⟨t, h1⟩
      · rcases w.g.before_total n m with hb | hb
        · exact .inl ⟨⟨t, f, h⟩, hb⟩
        · exact .inr ⟨⟨t, f, h.symm hw⟩, hb⟩

theorem subNbrs_symm {w : World} (hw : WF w) {es : List (Str × Str)} (hes : EsOk w es) (a b : Str)
    (h : b ∈ subNbrs w.g es a) : a ∈ subNbrs w.g es b := by
  rw [mem_subNbrs hw hes] at h ⊢
  obtain ⟨t, f, h⟩ := h
  exact ⟨t, f, h.symm hw⟩

theorem subNbrs_closed {w : World} (hw : WF w) {es : List (Str × Str)} (hes : EsOk w es) :
    ∀ v ∈ endpoints es, ∀ c ∈ subNbrs w.g es v, c ∈ endpoints es := by
  intro v _ c hc
  rw [mem_subNbrs hw hes] at hc
  obtain ⟨t, f, h⟩ := hc
  rw [mem_endpoints]
  rcases w.g.before_total v c with hb | hb
  · exact ⟨v, .inr ((hes v c).2 ⟨⟨t, f, h⟩, hb⟩)⟩
  · exact ⟨v, .inl ((hes c v).2 ⟨⟨t, f, h.symm hw⟩, hb⟩)⟩

theorem endpoints_edge {w : World} (hw : WF w) {es : List (Str × Str)} (hes : EsOk w es) (n : Str) :
    n ∈ endpoints es ↔ ∃ m t f, SetEdge w n m t f := by
  rw [mem_endpoints]
  constructor
  · rintro ⟨m, h | h⟩
    · obtain ⟨⟨t, f, h⟩, _⟩ := (hes n m).1 h
      exact ⟨m, t, f, h⟩
    · obtain ⟨⟨t, f, h⟩, _⟩ := (hes m n).1 h
      exact ⟨m, t, f, h.symm hw⟩
  · rintro ⟨m, t, f, h⟩
    rcases w.g.before_total n m with hb | hb
    · exact ⟨m, .inl ((hes n m).2 ⟨⟨t, f, h⟩, hb⟩)⟩
    · exact ⟨m, .inr ((hes m n).2 ⟨⟨t, f, h.symm hw⟩, hb⟩)⟩

theorem conn_iff {w : World} (hw : WF w) {es : List (Str × Str)} (hes : EsOk w es) (a b : Str) :
    Graph.Conn (subNbrs w.g es) a b ↔ SetConn w a b := by
  have : (fun a b => b ∈ subNbrs w.g es a) = (fun a b => ∃ t f, SetEdge w a b t f) := by
    funext x y
    exact propext (mem_subNbrs hw hes x y)
  unfold Graph.Conn SetConn
  rw [this]

theorem SetConn.symm {w : World} (hw : WF w) {a b : Str} (h : SetConn w a b) : SetConn w b a := by
  induction h with
  | refl => exact .refl
  | tail _ hbc ih =>
    obtain ⟨t, f, h⟩ := hbc
    exact .head ⟨t, f, h.symm hw⟩ ih

/-! ## One edge -/

/-- The new state after one edge (atom.py:1161-1169). -/
def enfStep (w : World) (l up : Nat) (f : ℚ) : World :=
  (((if (w.lv l).fixed = true ∧ (w.lv up).fixed = true ∧ f ≠ |w.eHz l - w.eHz up| then
          { w with warned := w.warned + 1 }
        else if (w.lv up).fixed = true then w.setE l (w.eHz up - f)
        else w.setE up (w.eHz l + f)).setFixed up true).setFixed l true)

theorem enfEdge_eq {w : World} {u v : Str} {t : Nat} {f : ℚ} (h : SetEdge w u v t f) :
    enfEdge u v w = (enfStep w (w.tr t).lower (w.tr t).upper f, .ok ()) := by
  unfold enfEdge
  rw [h.1]
  simp only
  rw [h.2]
  rfl

theorem setE_eframe (w : World) (i : Nat) (v : ℚ) : EFrame w (w.setE i v) := by
  refine ⟨rfl, rfl, rfl, rfl, rfl, rfl, rfl, rfl, rfl, rfl, fun k => ?_⟩
  by_cases h : k = i
  · subst h; exact ⟨v, (w.lv k).fixed, by simp [setE, setLv]⟩
  · exact ⟨(w.lv k).levelHz, (w.lv k).fixed, by simp [setE, setLv, upd_ne _ _ _ h]⟩

theorem setFixed_eframe (w : World) (i : Nat) (b : Bool) : EFrame w (w.setFixed i b) := by
  refine ⟨rfl, rfl, rfl, rfl, rfl, rfl, rfl, rfl, rfl, rfl, fun k => ?_⟩
  by_cases h : k = i
  · subst h; exact ⟨(w.lv k).levelHz, b, by simp [setFixed, setLv]⟩
  · exact ⟨(w.lv k).levelHz, (w.lv k).fixed, by simp [setFixed, setLv, upd_ne _ _ _ h]⟩

theorem warn_eframe (w : World) (n : Nat) : EFrame w { w with warned := n } :=
  ⟨rfl, rfl, rfl, rfl, rfl, rfl, rfl, rfl, rfl, rfl, fun k => ⟨(w.lv k).levelHz, (w.lv k).fixed, rfl⟩⟩

theorem enfStep_eframe (w : World) (l up : Nat) (f : ℚ) : EFrame w (enfStep w l up f) := by
  unfold enfStep
  refine EFrame.trans _ _ _ ?_ (EFrame.trans _ _ _ (setFixed_eframe _ up true) (setFixed_eframe _ _ true))
  split
  · exact warn_eframe w _
  · split
    · exact setE_eframe _ _ _
    · exact setE_eframe _ _ _

@[simp] theorem eHz_setFixed (w : World) (i k : Nat) (b : Bool) : (w.setFixed i b).eHz k = w.eHz k := by
  by_cases h : k = i
  · subst h; simp [setFixed, setLv, eHz]
  · simp [setFixed, setLv, eHz, upd_ne _ _ _ h]

theorem eHz_setE (w : World) (i k : Nat) (v : ℚ) : (w.setE i v).eHz k = if k = i then v else w.eHz k := by
  by_cases h : k = i
  · subst h; simp [setE, setLv, eHz]
  · simp [setE, setLv, eHz, upd_ne _ _ _ h, h]

theorem fixed_setFixed (w : World) (i k : Nat) (b : Bool) :
    ((w.setFixed i b).lv k).fixed = if k = i then b else (w.lv k).fixed := by
  by_cases h : k = i
  · subst h; simp [setFixed, setLv]
  · simp [setFixed, setLv, upd_ne _ _ _ h, h]

@[simp] theorem fixed_setE (w : World) (i k : Nat) (v : ℚ) : ((w.setE i v).lv k).fixed = (w.lv k).fixed := by
  by_cases h : k = i
  · subst h; simp [setE, setLv]
  · simp [setE, setLv, upd_ne _ _ _ h]

theorem eHz_enfStep (w : World) (l up : Nat) (f : ℚ) (k : Nat) :
    (enfStep w l up f).eHz k =
      if (w.lv l).fixed = true ∧ (w.lv up).fixed = true ∧ f ≠ |w.eHz l - w.eHz up| then w.eHz k
      else if (w.lv up).fixed = true then (if k = l then w.eHz up - f else w.eHz k)
      else (if k = up then w.eHz l + f else w.eHz k) := by
  unfold enfStep
  rw [eHz_setFixed, eHz_setFixed]
  split
  · rfl
  · split
    · rw [eHz_setE]
    · rw [eHz_setE]

theorem fixed_enfStep (w : World) (l up : Nat) (f : ℚ) (k : Nat) :
    ((enfStep w l up f).lv k).fixed = if k = l ∨ k = up then true else (w.lv k).fixed := by
  unfold enfStep
  rw [fixed_setFixed, fixed_setFixed]
  by_cases h1 : k = l
  · simp [h1]
  · by_cases h2 : k = up
    · simp [h2]
    · simp only [h1, h2, if_false, or_self]
      split
      · rfl
      · split
        · rw [fixed_setE]
        · rw [fixed_setE]

theorem warned_enfStep (w : World) (l up : Nat) (f : ℚ) :
    (enfStep w l up f).warned =
      if (w.lv l).fixed = true ∧ (w.lv up).fixed = true ∧ f ≠ |w.eHz l - w.eHz up| then w.warned + 1 else w.warned := by
  unfold enfStep
  by_cases h : (w.lv l).fixed = true ∧ (w.lv up).fixed = true ∧ f ≠ |w.eHz l - w.eHz up|
  · rw [if_pos h, if_pos h]; rfl
  · rw [if_neg h, if_neg h]
    split <;> rfl

theorem lv_enfStep_ne (w : World) (l up : Nat) (f : ℚ) (k : Nat) (h1 : k ≠ l) (h2 : k ≠ up) :
    (enfStep w l up f).lv k = w.lv k := by
  unfold enfStep
  simp only [setFixed, setLv, setE, upd_ne _ _ _ h1, upd_ne _ _ _ h2]
  split
  · rfl
  · split <;> simp only [upd_ne _ _ _ h1, upd_ne _ _ _ h2]

/-- The step when at least one of the two levels is pinned and the pinned ones agree with a potential. -/
theorem enfStep_good (w : World) (l up : Nat) (f : ℚ) (ψ : Nat → ℚ) (hf : 0 ≤ f) (hψ : ψ up - ψ l = f) (hne : l ≠ up)
    (hl : (w.lv l).fixed = true → w.eHz l = ψ l) (hu : (w.lv up).fixed = true → w.eHz up = ψ up)
    (hone : (w.lv l).fixed = true ∨ (w.lv up).fixed = true) :
    (enfStep w l up f).warned = w.warned ∧ (enfStep w l up f).eHz l = ψ l ∧ (enfStep w l up f).eHz up = ψ up := by
  have hnw : ¬((w.lv l).fixed = true ∧ (w.lv up).fixed = true ∧ f ≠ |w.eHz l - w.eHz up|) := by
    rintro ⟨h1, h2, h3⟩
    apply h3
    rw [hl h1, hu h2, abs_sub_comm, hψ, abs_of_nonneg hf]
  rw [warned_enfStep, if_neg hnw, eHz_enfStep, eHz_enfStep, if_neg hnw, if_neg hnw]
  refine ⟨rfl, ?_, ?_⟩
  · by_cases h2 : (w.lv up).fixed = true
    · rw [if_pos h2, if_pos rfl, hu h2, ← hψ]; ring
    · rw [if_neg h2, if_neg hne]
      rcases hone with h | h
      · exact hl h
      · exact absurd h h2
  · by_cases h2 : (w.lv up).fixed = true
    · rw [if_pos h2, if_neg (Ne.symm hne), hu h2]
    · rw [if_neg h2, if_pos rfl]
      rcases hone with h | h
      · rw [hl h, ← hψ]; ring
      · exact absurd h h2

/-! ## The whole search -/

/-- A set edge between two different nodes connects two different registered levels, lower and upper. -/
theorem SetEdge.levels {w : World} (hw : WF w) {u v : Str} {t : Nat} {f : ℚ} (h : SetEdge w u v t f) :
    ∃ i j, w.g.lev u = some i ∧ w.g.lev v = some j ∧
      ((i = (w.tr t).lower ∧ j = (w.tr t).upper) ∨ (i = (w.tr t).upper ∧ j = (w.tr t).lower)) := by
  obtain ⟨_, _, h3, h4, h5, _⟩ := hw.edge u v t h.1
  rcases h5 with ⟨rfl, rfl⟩ | ⟨rfl, rfl⟩
  · exact ⟨_, _, h3, h4, .inl ⟨rfl, rfl⟩⟩
  · exact ⟨_, _, h4, h3, .inr ⟨rfl, rfl⟩⟩

theorem lev_inj {w : World} (hw : WF w) {u v : Str} {i : Nat} (h1 : w.g.lev u = some i) (h2 : w.g.lev v = some i) :
    u = v := (hw.node u i h1).1.symm.trans (hw.node v i h2).1

/-- Whatever happens, the search terminates normally and changes only levels of `X`. -/
theorem enfEdges_frame' {nb : Str → List Str} {vis : List Str} {out : List (Str × Str)} (hg : Graph.Grow nb vis out)
    (X : Str → Prop) : ∀ (w : World), WF w → (∀ n m, X n → m ∈ nb n → ∃ t f, SetEdge w n m t f) →
    (∀ n m, X n → m ∈ nb n → X m) → (∀ n ∈ vis, X n) →
    ∃ w', enfEdges out w = (w', .ok ()) ∧ EFrame w w' ∧ (∀ i, ¬InX w X i → w'.lv i = w.lv i) := by
  induction hg with
  | nil vis => intro w hw _ _ _; exact ⟨w, rfl, .refl w, fun _ _ => rfl⟩
  | @cons vis p c out h1 h2 h3 h4 ih =>
    intro w hw hnb hX hvis
    obtain ⟨t, f, he⟩ := hnb p c (hvis p h1) h3
    have hstep := enfEdge_eq he
    have hfr := enfStep_eframe w (w.tr t).lower (w.tr t).upper f
    obtain ⟨w', e1, e2, e3⟩ := ih (enfStep w (w.tr t).lower (w.tr t).upper f) (hw.frame hfr.frame)
      (fun n m hn hm => by
        obtain ⟨t', f', h'⟩ := hnb n m hn hm
        exact ⟨t', f', (hfr.setEdge ..).2 h'⟩) hX
      (by
        intro n hn
        rcases List.mem_cons.1 hn with rfl | hn
        · exact hX p n (hvis p h1) h3
        · exact hvis n hn)
    refine ⟨w', ?_, EFrame.trans _ _ _ hfr e2, ?_⟩
    · unfold enfEdges
      rw [PyM.bind_ok hstep]
      exact e1
    · intro i hi
      have hi' : ¬InX (enfStep w (w.tr t).lower (w.tr t).upper f) X i := by
        rintro ⟨n, hn, hl⟩
        exact hi ⟨n, hn, by rw [hfr.g] at hl; exact hl⟩
      rw [e3 i hi']
      obtain ⟨a, b, ha, hb, hab⟩ := he.levels hw
      have hxp := hvis p h1
      have hxc := hX p c hxp h3
      apply lv_enfStep_ne
      · rintro rfl
        rcases hab with ⟨rfl, rfl⟩ | ⟨rfl, rfl⟩
        · exact hi ⟨p, hxp, ha⟩
        · exact hi ⟨c, hxc, hb⟩
      · rintro rfl
        rcases hab with ⟨rfl, rfl⟩ | ⟨rfl, rfl⟩
        · exact hi ⟨c, hxc, hb⟩
        · exact hi ⟨p, hxp, ha⟩

/-- Search where every edge met has a pinned end and the pinned levels agree with a potential: silently pins and
realises everything it visits. -/
theorem enfEdges_good {nb : Str → List Str} {vis : List Str} {out : List (Str × Str)} (hg : Graph.Grow nb vis out)
    (X : Str → Prop) (ψ : Nat → ℚ) : ∀ (w : World), WF w → (∀ n m, X n → m ∈ nb n → ∃ t f, SetEdge w n m t f) →
    (∀ n m, X n → m ∈ nb n → X m) → (∀ n ∈ vis, X n) →
    (∀ n m t f, X n → SetEdge w n m t f → 0 ≤ f ∧ ψ (w.tr t).upper - ψ (w.tr t).lower = f) →
    (∀ i, InX w X i → (w.lv i).fixed = true → w.eHz i = ψ i) →
    ((∀ n ∈ vis, ∀ i, w.g.lev n = some i → (w.lv i).fixed = true) ∨
      (∀ n m i j, X n → m ∈ nb n → n ≠ m → w.g.lev n = some i → w.g.lev m = some j →
        (w.lv i).fixed = true ∨ (w.lv j).fixed = true)) →
    ∃ w', enfEdges out w = (w', .ok ()) ∧ w'.warned = w.warned ∧
      (∀ i, InX w X i → (w'.lv i).fixed = true → w'.eHz i = ψ i) ∧
      (∀ i, (w.lv i).fixed = true → (w'.lv i).fixed = true) ∧
      (∀ e ∈ out, ∀ i, (w.g.lev e.1 = some i ∨ w.g.lev e.2 = some i) → (w'.lv i).fixed = true) := by
  induction hg with
  | nil vis => intro w hw _ _ _ _ ha _; exact ⟨w, rfl, rfl, ha, fun _ h => h, by simp⟩
  | @cons vis p c out h1 h2 h3 h4 ih =>
    intro w hw hnb hX hvis hpot hag hmode
    obtain ⟨t, f, he⟩ := hnb p c (hvis p h1) h3
    have hstep := enfEdge_eq he
    obtain ⟨a, b, ha, hb, hab⟩ := he.levels hw
    obtain ⟨hf0, hψ⟩ := hpot p c t f (hvis p h1) he
    set l := (w.tr t).lower with hl
    set up := (w.tr t).upper with hu
    have hfr := enfStep_eframe w l up f
    have hxp := hvis p h1
    have hxc := hX p c hxp h3
    have hpc : p ≠ c := fun e => h2 (e ▸ h1)
    have hab' : a ≠ b := fun e => hpc (lev_inj hw ha (e ▸ hb))
    have hlX : InX w X l := by
      rcases hab with ⟨rfl, rfl⟩ | ⟨rfl, rfl⟩
      · exact ⟨p, hxp, ha⟩
      · exact ⟨c, hxc, hb⟩
    have huX : InX w X up := by
      rcases hab with ⟨rfl, rfl⟩ | ⟨rfl, rfl⟩
      · exact ⟨c, hxc, hb⟩
      · exact ⟨p, hxp, ha⟩
    have hlu : l ≠ up := by
      rcases hab with ⟨e1, e2⟩ | ⟨e1, e2⟩
      · rw [← e1, ← e2]; exact hab'
      · rw [← e1, ← e2]; exact hab'.symm
    have hone : (w.lv l).fixed = true ∨ (w.lv up).fixed = true := by
      have : (w.lv a).fixed = true ∨ (w.lv b).fixed = true := by
        rcases hmode with hm | hm
        · exact .inl (hm p h1 a ha)
        · exact hm p c a b hxp h3 hpc ha hb
      rcases hab with ⟨e1, e2⟩ | ⟨e1, e2⟩
      · rw [← e1, ← e2]; exact this
      · rw [← e1, ← e2]; exact this.symm
    obtain ⟨s1, s2, s3⟩ := enfStep_good w l up f ψ hf0 hψ hlu (hag l hlX) (hag up huX) hone
    have hInX : ∀ i, InX (enfStep w l up f) X i ↔ InX w X i := by
      intro i; unfold InX; rw [hfr.g]
    obtain ⟨w', e1, e2, e3, e4, e5⟩ := ih (enfStep w l up f) (hw.frame hfr.frame)
      (fun n m hn hm => by
        obtain ⟨t', f', h'⟩ := hnb n m hn hm
        exact ⟨t', f', (hfr.setEdge ..).2 h'⟩) hX
      (by
        intro n hn
        rcases List.mem_cons.1 hn with rfl | hn
        · exact hxc
        · exact hvis n hn)
      (by
        intro n m t' f' hn h'
        rw [hfr.tr]
        exact hpot n m t' f' hn ((hfr.setEdge ..).1 h'))
      (by
        intro i hi hfi
        rw [hInX] at hi
        by_cases hil : i = l
        · rw [hil]; exact s2
        · by_cases hiu : i = up
          · rw [hiu]; exact s3
          · have := lv_enfStep_ne w l up f i hil hiu
            rw [this] at hfi
            show ((enfStep w l up f).lv i).levelHz = _
            rw [this]
            exact hag i hi hfi)
      (by
        rw [hfr.g]
        rcases hmode with hm | hm
        · left
          intro n hn i hi
          rw [fixed_enfStep]
          rcases List.mem_cons.1 hn with rfl | hn
          · rw [hb] at hi
            simp only [Option.some.injEq] at hi
            subst hi
            rw [if_pos]
            rcases hab with ⟨_, e2⟩ | ⟨_, e2⟩
            · exact .inr e2
            · exact .inl e2
          · split
            · rfl
            · exact hm n hn i hi
        · right
          intro n m i j hn hm' hnm hi hj
          rw [fixed_enfStep, fixed_enfStep]
          rcases hm n m i j hn hm' hnm hi hj with h | h
          · left; split
            · rfl
            · exact h
          · right; split
            · rfl
            · exact h)
    refine ⟨w', ?_, by rw [e2, s1], ?_, ?_, ?_⟩
    · unfold enfEdges
      rw [PyM.bind_ok hstep]
      exact e1
    · intro i hi hfi
      exact e3 i ((hInX i).2 hi) hfi
    · intro i hi
      apply e4
      rw [fixed_enfStep]
      split
      · rfl
      · exact hi
    · intro e hemem i hi
      rw [← hfr.g] at hi
      rcases List.mem_cons.1 hemem with rfl | hemem
      · apply e4
        rw [fixed_enfStep, if_pos]
        rw [hfr.g] at hi
        rcases hi with hi | hi
        · rw [ha] at hi
          simp only [Option.some.injEq] at hi
          subst hi
          rcases hab with ⟨x, _⟩ | ⟨x, _⟩
          · exact .inl x
          · exact .inr x
        · rw [hb] at hi
          simp only [Option.some.injEq] at hi
          subst hi
          rcases hab with ⟨_, x⟩ | ⟨_, x⟩
          · exact .inr x
          · exact .inl x
      · exact e5 e hemem i hi

/-- Search in which only the visited levels are pinned never warns, whatever the frequencies. -/
theorem enfEdges_quiet {nb : Str → List Str} {vis : List Str} {out : List (Str × Str)} (hg : Graph.Grow nb vis out)
    (X : Str → Prop) : ∀ (w : World), WF w → (∀ n m, X n → m ∈ nb n → ∃ t f, SetEdge w n m t f) →
    (∀ n m, X n → m ∈ nb n → X m) → (∀ n ∈ vis, X n) →
    (∀ n i, X n → n ∉ vis → w.g.lev n = some i → (w.lv i).fixed = false) →
    ∃ w', enfEdges out w = (w', .ok ()) ∧ w'.warned = w.warned := by
  induction hg with
  | nil vis => intro w _ _ _ _ _; exact ⟨w, rfl, rfl⟩
  | @cons vis p c out h1 h2 h3 h4 ih =>
    intro w hw hnb hX hvis hun
    obtain ⟨t, f, he⟩ := hnb p c (hvis p h1) h3
    have hstep := enfEdge_eq he
    obtain ⟨a, b, ha, hb, hab⟩ := he.levels hw
    set l := (w.tr t).lower with hl
    set up := (w.tr t).upper with hu
    have hfr := enfStep_eframe w l up f
    have hxp := hvis p h1
    have hxc := hX p c hxp h3
    have hbf : (w.lv b).fixed = false := hun c b hxc h2 hb
    have hw0 : (enfStep w l up f).warned = w.warned := by
      rw [warned_enfStep, if_neg]
      rintro ⟨x, y, _⟩
      rcases hab with ⟨_, e2⟩ | ⟨_, e2⟩
      · rw [← e2, hbf] at y; simp at y
      · rw [← e2, hbf] at x; simp at x
    obtain ⟨w', e1, e2⟩ := ih (enfStep w l up f) (hw.frame hfr.frame)
      (fun n m hn hm => by
        obtain ⟨t', f', h'⟩ := hnb n m hn hm
        exact ⟨t', f', (hfr.setEdge ..).2 h'⟩) hX
      (by
        intro n hn
        rcases List.mem_cons.1 hn with rfl | hn
        · exact hxc
        · exact hvis n hn)
      (by
        intro n i hn hnv hi
        rw [hfr.g] at hi
        simp only [List.mem_cons, not_or] at hnv
        rw [fixed_enfStep, if_neg]
        · exact hun n i hn hnv.2 hi
        · rintro (e | e)
          · subst e
            rcases hab with ⟨x, _⟩ | ⟨_, x⟩
            · rw [← x] at hi
              exact hnv.2 (lev_inj hw ha hi ▸ h1)
            · rw [← x] at hi
              exact hnv.1 (lev_inj hw hi hb)
          · subst e
            rcases hab with ⟨_, x⟩ | ⟨x, _⟩
            · rw [← x] at hi
              exact hnv.1 (lev_inj hw hi hb)
            · rw [← x] at hi
              exact hnv.2 (lev_inj hw ha hi ▸ h1))
    refine ⟨w', ?_, by rw [e2, hw0]⟩
    unfold enfEdges
    rw [PyM.bind_ok hstep]
    exact e1

end World
end AtomTk
