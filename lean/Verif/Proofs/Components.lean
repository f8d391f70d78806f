import Verif.Proofs.Enforce

/-! # Enforcement, component by component -/

namespace AtomTk
open Util

theorem Graph.Grow.mono {nb nb' : Str → List Str} (h : ∀ n m, m ∈ nb n → m ∈ nb' n) {vis : List Str}
    {out : List (Str × Str)} (hg : Graph.Grow nb vis out) : Graph.Grow nb' vis out := by
  induction hg with
  | nil vis => exact .nil vis
  | cons h1 h2 h3 _ ih => exact .cons h1 h2 (h _ _ h3) ih

namespace World

theorem lowestLoop_spec (w : World) (rest : List (Str × Option Nat)) (hr : ∀ p ∈ rest, ∃ l, p.2 = some l) :
    ∀ (cur : Nat) (k : Str), ∃ s l, lowestLoop w rest (some cur) (some k) = .ok (some s) ∧
      ((s = k ∧ l = cur) ∨ (s, some l) ∈ rest) ∧ w.eHz l ≤ w.eHz cur ∧
      ∀ p ∈ rest, ∀ l', p.2 = some l' → w.eHz l ≤ w.eHz l' := by
  induction rest with
  | nil => intro cur k; exact ⟨k, cur, rfl, .inl ⟨rfl, rfl⟩, le_refl _, by simp⟩
  | cons p rest ih =>
    intro cur k
    obtain ⟨n, o⟩ := p
    obtain ⟨l0, hl0⟩ := hr (n, o) (by simp)
    simp only at hl0
    subst hl0
    have hr' : ∀ p ∈ rest, ∃ l, p.2 = some l := fun p hp => hr p (by simp [hp])
    unfold lowestLoop
    by_cases hlt : w.eHz l0 < w.eHz cur
    · rw [if_pos hlt]
      obtain ⟨s, l, h1, h2, h3, h4⟩ := ih hr' l0 n
      refine ⟨s, l, h1, ?_, le_trans h3 hlt.le, ?_⟩
      · rcases h2 with ⟨rfl, rfl⟩ | h2
        · exact .inr (by simp)
        · exact .inr (by simp [h2])
      · intro p hp l' hl'
        rcases List.mem_cons.1 hp with rfl | hp
        · simp only [Option.some.injEq] at hl'; subst hl'; exact h3
        · exact h4 p hp l' hl'
    · rw [if_neg hlt]
      obtain ⟨s, l, h1, h2, h3, h4⟩ := ih hr' cur k
      refine ⟨s, l, h1, ?_, h3, ?_⟩
      · rcases h2 with h2 | h2
        · exact .inl h2
        · exact .inr (by simp [h2])
      · intro p hp l' hl'
        rcases List.mem_cons.1 hp with rfl | hp
        · simp only [Option.some.injEq] at hl'; subst hl'; exact le_trans h3 (not_lt.1 hlt)
        · exact h4 p hp l' hl'

/-- A component of the set graph. -/
def IsComp (w : World) (c : List Str) : Prop :=
  c.Nodup ∧ ∃ v, (∃ m t f, SetEdge w v m t f) ∧ ∀ n, n ∈ c ↔ SetConn w v n

theorem IsComp.closed {w : World} {c : List Str} (h : IsComp w c) {n m : Str} {t : Nat} {f : ℚ} (hn : n ∈ c)
    (he : SetEdge w n m t f) : m ∈ c := by
  obtain ⟨_, v, _, hv⟩ := h
  exact (hv m).2 (((hv n).1 hn).tail ⟨t, f, he⟩)

theorem IsComp.edge {w : World} (hw : WF w) {c : List Str} (h : IsComp w c) {n : Str} (hn : n ∈ c) :
    ∃ m t f, SetEdge w n m t f := by
  obtain ⟨_, v, hv0, hv⟩ := h
  have hc := (hv n).1 hn
  cases hc with
  | refl => exact hv0
  | tail _ hbc => obtain ⟨t, f, h⟩ := hbc; exact ⟨_, t, f, h.symm hw⟩

theorem IsComp.lev {w : World} (hw : WF w) {c : List Str} (h : IsComp w c) {n : Str} (hn : n ∈ c) :
    ∃ i, w.g.lev n = some i := by
  obtain ⟨m, t, f, he⟩ := h.edge hw hn
  obtain ⟨i, _, hi, _⟩ := he.levels hw
  exact ⟨i, hi⟩

theorem IsComp.conn {w : World} (hw : WF w) {c : List Str} (h : IsComp w c) {a b : Str} (ha : a ∈ c) (hb : b ∈ c) :
    SetConn w a b := by
  obtain ⟨_, v, _, hv⟩ := h
  exact (SetConn.symm hw ((hv a).1 ha)).trans ((hv b).1 hb)

theorem EFrame.conn {w w' : World} (h : EFrame w w') (a b : Str) : SetConn w' a b ↔ SetConn w a b := by
  have : (fun a b => ∃ t f, SetEdge w' a b t f) = (fun a b => ∃ t f, SetEdge w a b t f) := by
    funext x y
    simp only [h.setEdge]
  unfold SetConn
  rw [this]

theorem EFrame.isComp {w w' : World} (h : EFrame w w') (c : List Str) : IsComp w' c ↔ IsComp w c := by
  unfold IsComp
  simp only [h.conn, h.setEdge]

theorem EFrame.esOk {w w' : World} (h : EFrame w w') {es : List (Str × Str)} (he : EsOk w es) : EsOk w' es := by
  intro u v
  rw [he u v, h.g]
  simp only [h.setEdge]

theorem EFrame.inX {w w' : World} (h : EFrame w w') (X : Str → Prop) (i : Nat) : InX w' X i ↔ InX w X i := by
  unfold InX; rw [h.g]

/-- Where the search of one component starts and which edges it finds. -/
theorem comp_search {w : World} (hw : WF w) {es : List (Str × Str)} (hes : EsOk w es) {σ : Ord'} (hσ : Shuffles σ)
    {c : List Str} (hc : IsComp w c) :
    ∃ s is out, s ∈ c ∧ w.g.lev s = some is ∧ (∀ i, InX w (· ∈ c) i → w.eHz is ≤ w.eHz i) ∧
      Graph.Grow (subNbrs w.g es) [s] out ∧ (∀ n ∈ c, n = s ∨ n ∈ out.map Prod.snd) ∧
      lowestLoop w (withLevels w.g (σ (.low c) c)) none none = .ok (some s) ∧
      out = Graph.dfsEdges c (fun n => σ (.nbrs c n) (subNbrs w.g es n)) s := by
  -- the lowest level
  have hne : ∃ n, n ∈ c := by obtain ⟨_, v, _, hv⟩ := hc; exact ⟨v, (hv v).2 .refl⟩
  have hp := hσ (.low c) c
  have hL : ∀ p ∈ withLevels w.g (σ (.low c) c), ∃ l, p.2 = some l := by
    intro p hp'
    simp only [withLevels, List.mem_map] at hp'
    obtain ⟨n, hn, rfl⟩ := hp'
    exact hc.lev hw (hp.mem_iff.1 hn)
  have hlow : ∃ s is, lowestLoop w (withLevels w.g (σ (.low c) c)) none none = .ok (some s) ∧ s ∈ c ∧
      w.g.lev s = some is ∧ (∀ i, InX w (· ∈ c) i → w.eHz is ≤ w.eHz i) := by
    cases hcase : withLevels w.g (σ (.low c) c) with
    | nil =>
      obtain ⟨n, hn⟩ := hne
      have : (n, (w.g.get? n).bind NodeRec.level) ∈ withLevels w.g (σ (.low c) c) :=
        List.mem_map_of_mem (f := fun n => (n, (w.g.get? n).bind NodeRec.level)) (hp.mem_iff.2 hn)
      rw [hcase] at this
      simp at this
    | cons p rest =>
      obtain ⟨n0, o⟩ := p
      have hmem : ∀ q ∈ withLevels w.g (σ (.low c) c), q.1 ∈ c ∧ w.g.lev q.1 = q.2 := by
        intro q hq
        simp only [withLevels, List.mem_map] at hq
        obtain ⟨n, hn, rfl⟩ := hq
        exact ⟨hp.mem_iff.1 hn, rfl⟩
      obtain ⟨l0, hl0⟩ := hL (n0, o) (by rw [hcase]; simp)
      simp only at hl0
      subst hl0
      obtain ⟨s, l, h1, h2, h3, h4⟩ := lowestLoop_spec w rest (fun p hp => hL p (by rw [hcase]; simp [hp])) l0 n0
      have hin : (s, some l) ∈ withLevels w.g (σ (.low c) c) := by
        rw [hcase]
        rcases h2 with ⟨rfl, rfl⟩ | h2
        · simp
        · simp [h2]
      refine ⟨s, l, ?_, (hmem _ hin).1, (hmem _ hin).2, ?_⟩
      · unfold lowestLoop; exact h1
      · rintro i ⟨n, hn, hi⟩
        have hn' : (n, some i) ∈ withLevels w.g (σ (.low c) c) := by
          simp only [withLevels, List.mem_map]
          exact ⟨n, hp.mem_iff.2 hn, by rw [← hi]; rfl⟩
        rw [hcase] at hn'
        rcases List.mem_cons.1 hn' with e | hn'
        · simp only [Prod.mk.injEq, Option.some.injEq] at e
          rw [e.2]; exact h3
        · exact h4 _ hn' i rfl
  obtain ⟨s, is, hl, hs, his, hmin⟩ := hlow
  -- the search
  have hcl : ∀ v ∈ c, ∀ x ∈ σ (.nbrs c v) (subNbrs w.g es v), x ∈ c := by
    intro v hv x hx
    have hx' := (hσ (.nbrs c v) (subNbrs w.g es v)).mem_iff.1 hx
    rw [mem_subNbrs hw hes] at hx'
    obtain ⟨t, f, h⟩ := hx'
    exact hc.closed hv h
  obtain ⟨hg, hreach⟩ := Graph.dfsEdges_spec c (fun n => σ (.nbrs c n) (subNbrs w.g es n)) hc.1 hcl s hs
  refine ⟨s, is, Graph.dfsEdges c (fun n => σ (.nbrs c n) (subNbrs w.g es n)) s, hs, his, hmin,
    hg.mono (fun n m hm => (hσ (.nbrs c n) (subNbrs w.g es n)).mem_iff.1 hm), ?_, hl, rfl⟩
  · intro n hn
    have hr := (Graph.mem_reach c (fun n => σ (.nbrs c n) (subNbrs w.g es n)) hc.1 hcl s hs n).2 ?_
    · simpa [Graph.reach] using hr
    · refine Relation.ReflTransGen.mono ?_ _ _ (hc.conn hw hs hn)
      rintro a b ⟨t, f, h⟩
      exact (hσ (.nbrs c a) (subNbrs w.g es a)).mem_iff.2 ((mem_subNbrs hw hes a b).2 ⟨t, f, h⟩)

/-- What one component's enforcement runs. -/
theorem enfComp_search {w : World} (hw : WF w) {es : List (Str × Str)} (hes : EsOk w es) {σ : Ord'} (hσ : Shuffles σ)
    {c : List Str} (hc : IsComp w c) :
    ∃ s is out, s ∈ c ∧ w.g.lev s = some is ∧ (∀ i, InX w (· ∈ c) i → w.eHz is ≤ w.eHz i) ∧
      Graph.Grow (subNbrs w.g es) [s] out ∧ (∀ n ∈ c, n = s ∨ n ∈ out.map Prod.snd) ∧
      enfComp σ es c w = enfEdges out w := by
  obtain ⟨s, is, out, h1, h2, h3, h4, h5, h6, rfl⟩ := comp_search hw hes hσ hc
  refine ⟨s, is, _, h1, h2, h3, h4, h5, ?_⟩
  unfold enfComp
  rw [h6]

/-- One component: normal return, nothing outside changes. -/
theorem enfComp_frame' {w : World} (hw : WF w) {es : List (Str × Str)} (hes : EsOk w es) {σ : Ord'} (hσ : Shuffles σ)
    {c : List Str} (hc : IsComp w c) :
    ∃ w', enfComp σ es c w = (w', .ok ()) ∧ EFrame w w' ∧ (∀ i, ¬InX w (· ∈ c) i → w'.lv i = w.lv i) := by
  obtain ⟨s, is, out, h1, h2, h3, h4, h5, h6⟩ := enfComp_search hw hes hσ hc
  rw [h6]
  refine enfEdges_frame' h4 (· ∈ c) w hw ?_ ?_ ?_
  · intro n m _ hm; exact (mem_subNbrs hw hes n m).1 hm
  · intro n m hn hm
    obtain ⟨t, f, h⟩ := (mem_subNbrs hw hes n m).1 hm
    exact hc.closed hn h
  · intro n hn; simp at hn; rw [hn]; exact h1

/-- Sufficient conditions for one component to be enforced completely. -/
def Ready (w : World) (X : Str → Prop) : Prop :=
  ∃ φ, Potential w X φ ∧
    ((∀ i, InX w X i → (w.lv i).fixed = false) ∨
      ((∀ i, InX w X i → (w.lv i).fixed = true → w.eHz i = φ i) ∧
        ((∀ i, InX w X i → (∀ j, InX w X j → w.eHz i ≤ w.eHz j) → (w.lv i).fixed = true) ∨
          (∀ n m t f i j, X n → X m → SetEdge w n m t f → n ≠ m → w.g.lev n = some i → w.g.lev m = some j →
            (w.lv i).fixed = true ∨ (w.lv j).fixed = true))))

/-- The outcome. -/
structure Done (w w' : World) (X : Str → Prop) : Prop where
  real : ∀ n m t f, X n → SetEdge w n m t f → 0 ≤ f ∧ w'.eHz (w.tr t).upper - w'.eHz (w.tr t).lower = f
  kept : ∀ i, InX w X i → (w.lv i).fixed = true → w'.eHz i = w.eHz i
  pinned : ∀ n m t f i, X n → SetEdge w n m t f → n ≠ m → w.g.lev n = some i → (w'.lv i).fixed = true
  lowest : (∀ i, InX w X i → (w.lv i).fixed = false) → Oriented w X →
    ∃ i, InX w X i ∧ (∀ j, InX w X j → w.eHz i ≤ w.eHz j) ∧ w'.eHz i = w.eHz i

theorem enfComp_good {w : World} (hw : WF w) {es : List (Str × Str)} (hes : EsOk w es) {σ : Ord'} (hσ : Shuffles σ)
    {c : List Str} (hc : IsComp w c) (hr : Ready w (· ∈ c)) :
    ∃ w', enfComp σ es c w = (w', .ok ()) ∧ Done w w' (· ∈ c) ∧ w'.warned = w.warned := by
  obtain ⟨s, is, out, hs, his, hmin, hg, hall, heq⟩ := enfComp_search hw hes hσ hc
  obtain ⟨φ, hφ, hcase⟩ := hr
  have hnb : ∀ n m, n ∈ c → m ∈ subNbrs w.g es n → ∃ t f, SetEdge w n m t f := fun n m _ hm => (mem_subNbrs hw hes n m).1 hm
  have hX : ∀ n m, n ∈ c → m ∈ subNbrs w.g es n → m ∈ c := fun n m hn hm => by
    obtain ⟨t, f, h⟩ := hnb n m hn hm; exact hc.closed hn h
  rw [heq]
  cases hg with
  | nil =>
    -- a single level, possibly with transitions to itself
    have hsing : ∀ n ∈ c, n = s := fun n hn => by simpa using hall n hn
    refine ⟨w, rfl, ⟨?_, fun _ _ _ => rfl, ?_, fun _ _ => ⟨is, ⟨s, hs, his⟩, hmin, rfl⟩⟩, rfl⟩
    · intro n m t f hn he
      have hm := hc.closed hn he
      obtain ⟨i, j, hi, hj, hij⟩ := he.levels hw
      have e : i = j := by
        rw [hsing n hn] at hi; rw [hsing m hm] at hj; rw [hi] at hj; simpa using hj
      obtain ⟨h0, h1⟩ := hφ n m t f hn he
      have : (w.tr t).lower = (w.tr t).upper := by
        rcases hij with ⟨rfl, rfl⟩ | ⟨rfl, rfl⟩
        · exact e
        · exact e.symm
      rw [this] at h1 ⊢
      refine ⟨h0, ?_⟩
      simpa using h1
    · intro n m t f i hn he hnm
      exact absurd ((hsing n hn).trans (hsing m (hc.closed hn he)).symm) hnm
  | @cons _ p d rest hp hd hnbr hrest =>
    simp only [List.mem_singleton] at hp hd
    subst hp
    obtain ⟨t, f, he⟩ := hnb p d hs hnbr
    obtain ⟨a, b, ha, hb, hab⟩ := he.levels hw
    rw [his] at ha
    simp only [Option.some.injEq] at ha
    subst ha
    have hdc : d ∈ c := hX p d hs hnbr
    -- assembling the outcome from the search
    have finish : ∀ (w1 w' : World) (ψ : Nat → ℚ), Potential w (· ∈ c) ψ →
        (∀ i, InX w (· ∈ c) i → (w'.lv i).fixed = true → w'.eHz i = ψ i) →
        (∀ i, InX w (· ∈ c) i → (w'.lv i).fixed = true) →
        (∀ n m t f, n ∈ c → SetEdge w n m t f →
          0 ≤ f ∧ w'.eHz (w.tr t).upper - w'.eHz (w.tr t).lower = f) := by
      intro _ w' ψ hψ h1 h2 n m t f hn he
      obtain ⟨i, j, hi, hj, hij⟩ := he.levels hw
      have hm := hc.closed hn he
      obtain ⟨h0, h3⟩ := hψ n m t f hn he
      have hiX : InX w (· ∈ c) i := ⟨n, hn, hi⟩
      have hjX : InX w (· ∈ c) j := ⟨m, hm, hj⟩
      refine ⟨h0, ?_⟩
      rcases hij with ⟨rfl, rfl⟩ | ⟨rfl, rfl⟩
      · rw [h1 _ hiX (h2 _ hiX), h1 _ hjX (h2 _ hjX), h3]
      · rw [h1 _ hiX (h2 _ hiX), h1 _ hjX (h2 _ hjX), h3]
    rcases hcase with hun | ⟨hag, hmode⟩
    · -- nothing pinned: the first edge fixes the constant
      set l := (w.tr t).lower with hl
      set up := (w.tr t).upper with hu
      have hfr := enfStep_eframe w l up f
      set ψ : Nat → ℚ := fun i => φ i + (w.eHz l - φ l) with hψd
      have hψ : Potential w (· ∈ c) ψ := by
        intro n m t f hn he
        obtain ⟨h0, h1⟩ := hφ n m t f hn he
        refine ⟨h0, ?_⟩
        simp only [hψd]
        rw [← h1]; ring
      have hpd : p ≠ d := fun e => hd e.symm
      have habne : is ≠ b := fun e => hpd (lev_inj hw his (e ▸ hb))
      have hlu : l ≠ up := by
        rcases hab with ⟨e1, e2⟩ | ⟨e1, e2⟩
        · rw [← e1, ← e2]; exact habne
        · rw [← e1, ← e2]; exact habne.symm
      have hlX : InX w (· ∈ c) l := by
        rcases hab with ⟨e, _⟩ | ⟨_, e⟩
        · exact ⟨p, hs, e ▸ his⟩
        · exact ⟨d, hdc, e ▸ hb⟩
      have huX : InX w (· ∈ c) up := by
        rcases hab with ⟨_, e⟩ | ⟨e, _⟩
        · exact ⟨d, hdc, e ▸ hb⟩
        · exact ⟨p, hs, e ▸ his⟩
      have hE : ∀ k, (enfStep w l up f).eHz k = if k = up then w.eHz l + f else w.eHz k := by
        intro k
        rw [eHz_enfStep, if_neg (by rw [hun l hlX]; simp), if_neg (by rw [hun up huX]; simp)]
      have hwd : (enfStep w l up f).warned = w.warned := by
        rw [warned_enfStep, if_neg (by rw [hun l hlX]; simp)]
      obtain ⟨h0, hφe⟩ := hφ p d t f hs he
      rw [← hl, ← hu] at hφe
      obtain ⟨w', e1, e2, e3, e4, e5⟩ := enfEdges_good hrest (· ∈ c) ψ (enfStep w l up f) (hw.frame hfr.frame)
        (fun n m hn hm => by
          obtain ⟨t', f', h'⟩ := hnb n m hn hm
          exact ⟨t', f', (hfr.setEdge ..).2 h'⟩) hX
        (by
          intro n hn
          simp only [List.mem_cons, List.not_mem_nil, or_false] at hn
          rcases hn with rfl | rfl
          · exact hdc
          · exact hs)
        (by
          intro n m t' f' hn h'
          rw [hfr.tr]
          exact hψ n m t' f' hn ((hfr.setEdge ..).1 h'))
        (by
          intro i hi hfi
          rw [hfr.inX] at hi
          rw [fixed_enfStep] at hfi
          by_cases hil : i = l
          · rw [hE, hil, if_neg hlu, hψd]; ring
          · by_cases hiu : i = up
            · rw [hE, hiu, if_pos rfl]
              simp only [hψd]
              rw [← hφe]; ring
            · rw [if_neg (by simp [hil, hiu]), hun i hi] at hfi
              simp at hfi)
        (by
          left
          intro n hn i hi
          rw [hfr.g] at hi
          rw [fixed_enfStep, if_pos]
          simp only [List.mem_cons, List.not_mem_nil, or_false] at hn
          rcases hn with rfl | rfl
          · rw [hb] at hi
            simp only [Option.some.injEq] at hi
            subst hi
            rcases hab with ⟨_, e⟩ | ⟨_, e⟩
            · exact .inr e
            · exact .inl e
          · rw [his] at hi
            simp only [Option.some.injEq] at hi
            subst hi
            rcases hab with ⟨e, _⟩ | ⟨e, _⟩
            · exact .inl e
            · exact .inr e)
      have hfin : ∀ i, InX w (· ∈ c) i → (w'.lv i).fixed = true := by
        rintro i ⟨n, hn, hi⟩
        rcases hall n hn with rfl | hn'
        · apply e4
          rw [fixed_enfStep, if_pos]
          rw [his] at hi
          simp only [Option.some.injEq] at hi
          subst hi
          rcases hab with ⟨e, _⟩ | ⟨e, _⟩
          · exact .inl e
          · exact .inr e
        · simp only [List.map_cons, List.mem_cons] at hn'
          rcases hn' with rfl | hn'
          · apply e4
            rw [fixed_enfStep, if_pos]
            rw [hb] at hi
            simp only [Option.some.injEq] at hi
            subst hi
            rcases hab with ⟨_, e⟩ | ⟨_, e⟩
            · exact .inr e
            · exact .inl e
          · obtain ⟨e, he, rfl⟩ := List.mem_map.1 hn'
            exact e5 e he i (.inr (by rw [hfr.g]; exact hi))
      have hag' : ∀ i, InX w (· ∈ c) i → (w'.lv i).fixed = true → w'.eHz i = ψ i :=
        fun i hi h => e3 i ((hfr.inX ..).2 hi) h
      refine ⟨w', ?_, ⟨finish w w' ψ hψ hag' hfin, ?_, fun n m t f i hn he _ hi => hfin i ⟨n, hn, hi⟩, ?_⟩, by rw [e2, hwd]⟩
      · unfold enfEdges
        rw [PyM.bind_ok (enfEdge_eq he)]
        exact e1
      · intro i hi hfi
        rw [hun i hi] at hfi
        simp at hfi
      · intro _ hor
        refine ⟨l, hlX, ?_, ?_⟩
        · intro j hj
          rcases hab with ⟨e, _⟩ | ⟨e, _⟩
          · rw [← e]; exact hmin j hj
          · have := hor p d t f hs he
            rw [← hl, ← hu, ← e] at this
            exact le_trans this (hmin j hj)
        · rw [hag' l hlX (hfin l hlX), hψd]; ring
    · -- the pinned levels agree
      obtain ⟨w', e1, e2, e3, e4, e5⟩ := enfEdges_good (Graph.Grow.cons (vis := [p]) (by simp) (by simpa using hd) hnbr hrest)
        (· ∈ c) φ w hw hnb hX (by intro n hn; simp only [List.mem_singleton] at hn; rw [hn]; exact hs)
        hφ hag
        (by
          rcases hmode with hm | hm
          · left
            intro n hn i hi
            simp only [List.mem_singleton] at hn
            subst hn
            rw [his] at hi
            simp only [Option.some.injEq] at hi
            subst hi
            exact hm is ⟨n, hs, his⟩ hmin
          · right
            intro n m i j hn hm' hnm hi hj
            obtain ⟨t', f', h'⟩ := hnb n m hn hm'
            exact hm n m t' f' i j hn (hX n m hn hm') h' hnm hi hj)
      have hfin : ∀ i, InX w (· ∈ c) i → (w'.lv i).fixed = true := by
        rintro i ⟨n, hn, hi⟩
        rcases hall n hn with rfl | hn'
        · exact e5 (n, d) (by simp) i (.inl hi)
        · obtain ⟨e, he, rfl⟩ := List.mem_map.1 hn'
          exact e5 e he i (.inr hi)
      refine ⟨w', e1, ⟨finish w w' φ hφ e3 hfin, ?_, fun n m t f i hn he _ hi => hfin i ⟨n, hn, hi⟩, ?_⟩, e2⟩
      · intro i hi hfi
        rw [e3 i hi (e4 i hfi), hag i hi hfi]
      · intro hun hor
        exfalso
        -- impossible: every first edge has a pinned end
        rcases hmode with hm | hm
        · have := hm is ⟨p, hs, his⟩ hmin
          rw [hun is ⟨p, hs, his⟩] at this
          simp at this
        · rcases hm p d t f is b hs hdc he (fun e => hd e.symm) his hb with h | h
          · rw [hun is ⟨p, hs, his⟩] at h; simp at h
          · rw [hun b ⟨d, hdc, hb⟩] at h; simp at h

/-- A group without pinned levels never warns. -/
theorem enfComp_quiet {w : World} (hw : WF w) {es : List (Str × Str)} (hes : EsOk w es) {σ : Ord'} (hσ : Shuffles σ)
    {c : List Str} (hc : IsComp w c) (hun : ∀ i, InX w (· ∈ c) i → (w.lv i).fixed = false) :
    ∃ w', enfComp σ es c w = (w', .ok ()) ∧ w'.warned = w.warned := by
  obtain ⟨s, is, out, hs, his, hmin, hg, hall, heq⟩ := enfComp_search hw hes hσ hc
  rw [heq]
  refine enfEdges_quiet hg (· ∈ c) w hw (fun n m _ hm => (mem_subNbrs hw hes n m).1 hm) ?_ ?_ ?_
  · intro n m hn hm
    obtain ⟨t, f, h⟩ := (mem_subNbrs hw hes n m).1 hm
    exact hc.closed hn h
  · intro n hn; simp only [List.mem_singleton] at hn; rw [hn]; exact hs
  · intro n i hn _ hi; exact hun i ⟨n, hn, hi⟩

/-! ## All components -/

/-- The levels of the component are the same objects in the same state. -/
def AgreeOn (w w' : World) (c : List Str) : Prop := ∀ i, InX w (· ∈ c) i → w'.lv i = w.lv i

/-- The induction over the components. -/
theorem enfComps_spec {σ : Ord'} (hσ : Shuffles σ) {es : List (Str × Str)} (trig : Option (Str × Str))
    (P : World → List Str → Prop) (Q : World → World → List Str → Prop) (quiet : Prop)
    (hP : ∀ w1 w2 c, EFrame w1 w2 → AgreeOn w1 w2 c → P w1 c → P w2 c)
    (hQ1 : ∀ w1 w2 w3 c, EFrame w1 w2 → AgreeOn w1 w2 c → Q w2 w3 c → Q w1 w3 c)
    (hQ2 : ∀ w1 w2 w3 c, EFrame w1 w2 → EFrame w2 w3 → AgreeOn w2 w3 c → Q w1 w2 c → Q w1 w3 c)
    (hstep : ∀ w c, WF w → EsOk w es → IsComp w c → P w c →
      ∃ w', enfComp σ es c w = (w', .ok ()) ∧ Q w w' c ∧ (quiet → w'.warned = w.warned)) :
    ∀ (cs : List (List Str)) (w : World), WF w → EsOk w es → (∀ c ∈ cs, IsComp w c) →
      cs.Pairwise (fun c d => ∀ x ∈ c, x ∉ d) → (∀ c ∈ cs, triggered w.g es c trig = true → P w c) →
      ∃ w', enfComps σ es trig cs w = (w', .ok ()) ∧ EFrame w w' ∧
        (∀ i, (¬∃ c ∈ cs, triggered w.g es c trig = true ∧ InX w (· ∈ c) i) → w'.lv i = w.lv i) ∧
        (∀ c ∈ cs, triggered w.g es c trig = true → Q w w' c) ∧ (quiet → w'.warned = w.warned) := by
  intro cs
  induction cs with
  | nil => intro w _ _ _ _ _; exact ⟨w, rfl, .refl w, fun _ _ => rfl, by simp, fun _ => rfl⟩
  | cons c cs ih =>
    intro w hw hes hcomp hpw hPc
    rw [List.pairwise_cons] at hpw
    by_cases ht : triggered w.g es c trig = true
    · have hcc := hcomp c (by simp)
      obtain ⟨w1, h1, h2, h3⟩ := hstep w c hw hes hcc (hPc c (by simp) ht)
      obtain ⟨w1', h1', h4, h5⟩ := enfComp_frame' hw hes hσ hcc
      rw [h1] at h1'
      simp only [Prod.mk.injEq, and_true] at h1'
      subst h1'
      -- the other components are untouched
      have hother : ∀ d, (∀ x ∈ c, x ∉ d) → AgreeOn w w1 d := by
        intro d hd i ⟨n, hn, hi⟩
        apply h5
        rintro ⟨m, hm, hmi⟩
        have : n = m := lev_inj hw hi hmi
        subst this
        exact hd n hm hn
      obtain ⟨w2, k1, k2, k3, k4, k5⟩ := ih w1 (hw.frame h4.frame) (h4.esOk hes)
        (fun d hd => (h4.isComp d).2 (hcomp d (by simp [hd]))) hpw.2
        (fun d hd htd => by
          rw [h4.g] at htd
          exact hP w w1 d h4 (hother d (hpw.1 d hd)) (hPc d (by simp [hd]) htd))
      have hcw2 : AgreeOn w1 w2 c := by
        intro i ⟨n, hn, hi⟩
        apply k3
        rintro ⟨d, hd, _, m, hm, hmi⟩
        have : n = m := lev_inj (hw.frame h4.frame) hi hmi
        subst this
        exact hpw.1 d hd n hn hm
      refine ⟨w2, ?_, EFrame.trans _ _ _ h4 k2, ?_, ?_, ?_⟩
      · unfold enfComps
        rw [if_pos ht, PyM.bind_ok h1]
        exact k1
      · intro i hi
        rw [k3 i, h5 i]
        · intro hx; exact hi ⟨c, by simp, ht, hx⟩
        · rintro ⟨d, hd, htd, hx⟩
          rw [h4.g] at htd
          exact hi ⟨d, by simp [hd], htd, (h4.inX ..).1 hx⟩
      · intro d hd htd
        rcases List.mem_cons.1 hd with rfl | hd
        · exact hQ2 w w1 w2 d h4 k2 hcw2 h2
        · exact hQ1 w w1 w2 d h4 (hother d (hpw.1 d hd)) (k4 d hd (by rw [h4.g]; exact htd))
      · intro hq; rw [k5 hq, h3 hq]
    · obtain ⟨w2, k1, k2, k3, k4, k5⟩ := ih w hw hes (fun d hd => hcomp d (by simp [hd])) hpw.2
        (fun d hd => hPc d (by simp [hd]))
      refine ⟨w2, ?_, k2, ?_, ?_, k5⟩
      · unfold enfComps
        rw [if_neg ht]
        exact k1
      · intro i hi
        apply k3
        rintro ⟨d, hd, h⟩
        exact hi ⟨d, by simp [hd], h⟩
      · intro d hd htd
        rcases List.mem_cons.1 hd with rfl | hd
        · exact absurd htd ht
        · exact k4 d hd htd

/-- The components enforcement loops over. -/
theorem set_comps {w : World} (hw : WF w) {σ : Ord'} (hσ : Shuffles σ) :
    ∃ es, w.setEdges = .ok es ∧ EsOk w es ∧ ∃ cs, cs = Graph.compsFrom (endpoints es) (fun n => subNbrs w.g es n) (σ .comps (endpoints es)) [] ∧
      (∀ c ∈ cs, IsComp w c) ∧
      cs.Pairwise (fun c d => ∀ x ∈ c, x ∉ d) ∧ (∀ n m t f, SetEdge w n m t f → ∃ c ∈ cs, n ∈ c) := by
  obtain ⟨es, h1, hes⟩ := hw.setEdges
  have hV := nodup_endpoints es
  have hcl := subNbrs_closed hw hes
  obtain ⟨s1, s2, s3⟩ := Graph.compsFrom_spec (endpoints es) (fun n => subNbrs w.g es n) hV hcl
    (fun a b h => subNbrs_symm hw hes a b h) (σ .comps (endpoints es)) []
    (fun v hv => (hσ .comps (endpoints es)).mem_iff.1 hv) (by simp)
  refine ⟨es, h1, hes, _, rfl, ?_, s2, ?_⟩
  · intro c hc
    obtain ⟨v, hv, _, rfl⟩ := s1 c hc
    have hvV := (hσ .comps (endpoints es)).mem_iff.1 hv
    refine ⟨Graph.nodup_reach _ _ hV hcl v hvV, v, ?_, ?_⟩
    · exact (endpoints_edge hw hes v).1 hvV
    · intro n
      rw [Graph.mem_reach _ _ hV hcl v hvV n]
      exact conn_iff hw hes v n
  · intro n m t f he
    have hn : n ∈ endpoints es := (endpoints_edge hw hes n).2 ⟨m, t, f, he⟩
    rcases s3 n ((hσ .comps (endpoints es)).mem_iff.2 hn) with h | h
    · simp at h
    · exact h

/-- Enforcement as a loop over the components. -/
theorem enforce_comps {w : World} (hw : WF w) {σ : Ord'} (hσ : Shuffles σ) (trig : Option (Str × Str)) :
    ∃ es cs, EsOk w es ∧ enforce σ trig w = enfComps σ es trig cs w ∧ (∀ c ∈ cs, IsComp w c) ∧
      cs.Pairwise (fun c d => ∀ x ∈ c, x ∉ d) ∧ (∀ n m t f, SetEdge w n m t f → ∃ c ∈ cs, n ∈ c) := by
  obtain ⟨es, h1, hes, cs, rfl, h2, h3, h4⟩ := set_comps hw hσ
  refine ⟨es, _, hes, ?_, h2, h3, h4⟩
  unfold enforce
  rw [h1]

theorem triggered_some {w : World} (hw : WF w) {es : List (Str × Str)} (hes : EsOk w es) (c : List Str) (p : Str × Str) :
    triggered w.g es c (some p) = true ↔ p.1 ∈ c ∧ ∃ t f, SetEdge w p.1 p.2 t f := by
  simp only [triggered, inComp, Bool.and_eq_true, decide_eq_true_eq, mem_subNbrs hw hes]

/-! ## Consequences -/

theorem AgreeOn.eHz {w w' : World} {c : List Str} (h : AgreeOn w w' c) {i : Nat} (hi : InX w (· ∈ c) i) :
    w'.eHz i = w.eHz i := by unfold World.eHz; rw [h i hi]

theorem SetEdge.inX {w : World} (hw : WF w) {X : Str → Prop} {n m : Str} {t : Nat} {f : ℚ} (he : SetEdge w n m t f)
    (hn : X n) (hm : X m) : InX w X (w.tr t).lower ∧ InX w X (w.tr t).upper := by
  obtain ⟨i, j, hi, hj, hij⟩ := he.levels hw
  rcases hij with ⟨rfl, rfl⟩ | ⟨rfl, rfl⟩
  · exact ⟨⟨n, hn, hi⟩, ⟨m, hm, hj⟩⟩
  · exact ⟨⟨m, hm, hj⟩, ⟨n, hn, hi⟩⟩

theorem EFrame.potential {w1 w2 : World} (h : EFrame w1 w2) {X : Str → Prop} {φ : Nat → ℚ}
    (hp : Potential w1 X φ) : Potential w2 X φ := by
  intro n m t f hn he
  rw [h.tr]
  exact hp n m t f hn ((h.setEdge ..).1 he)

theorem ready_local (w1 w2 : World) (c : List Str) (h : EFrame w1 w2) (ha : AgreeOn w1 w2 c)
    (hr : Ready w1 (· ∈ c)) : Ready w2 (· ∈ c) := by
  obtain ⟨φ, hφ, hc⟩ := hr
  refine ⟨φ, h.potential hφ, ?_⟩
  rcases hc with hc | ⟨hc, hm⟩
  · left
    intro i hi
    rw [h.inX] at hi
    rw [ha i hi]; exact hc i hi
  · right
    refine ⟨?_, ?_⟩
    · intro i hi
      rw [h.inX] at hi
      rw [ha i hi, ha.eHz hi]; exact hc i hi
    · rcases hm with hm | hm
      · left
        intro i hi hmin
        rw [h.inX] at hi
        rw [ha i hi]
        refine hm i hi (fun j hj => ?_)
        have := hmin j ((h.inX ..).2 hj)
        rwa [ha.eHz hi, ha.eHz hj] at this
      · right
        intro n m t f i j hn hmc he hnm hi hj
        rw [h.setEdge] at he
        rw [h.g] at hi hj
        rw [ha i ⟨n, hn, hi⟩, ha j ⟨m, hmc, hj⟩]
        exact hm n m t f i j hn hmc he hnm hi hj

theorem AgreeOn.oriented {w1 w2 : World} {c : List Str} (hw : WF w1) (hc : IsComp w1 c) (h : EFrame w1 w2)
    (ha : AgreeOn w1 w2 c) : Oriented w2 (· ∈ c) ↔ Oriented w1 (· ∈ c) := by
  constructor
  · intro ho n m t f hn he
    obtain ⟨a, b⟩ := he.inX hw (X := (· ∈ c)) hn (hc.closed hn he)
    have := ho n m t f hn ((h.setEdge ..).2 he)
    rwa [h.tr, ha.eHz a, ha.eHz b] at this
  · intro ho n m t f hn he
    rw [h.setEdge] at he
    obtain ⟨a, b⟩ := he.inX hw (X := (· ∈ c)) hn (hc.closed hn he)
    rw [h.tr, ha.eHz a, ha.eHz b]
    exact ho n m t f hn he

theorem done_local1 (w1 w2 w3 : World) (c : List Str) (hw : WF w1) (hc : IsComp w1 c) (h : EFrame w1 w2)
    (ha : AgreeOn w1 w2 c) (hd : Done w2 w3 (· ∈ c)) : Done w1 w3 (· ∈ c) := by
  refine ⟨?_, ?_, ?_, ?_⟩
  · intro n m t f hn he
    have := hd.real n m t f hn ((h.setEdge ..).2 he)
    rwa [h.tr] at this
  · intro i hi hf
    have := hd.kept i ((h.inX ..).2 hi) (by rw [ha i hi]; exact hf)
    rw [this, ha.eHz hi]
  · intro n m t f i hn he hnm hi
    exact hd.pinned n m t f i hn ((h.setEdge ..).2 he) hnm (by rw [h.g]; exact hi)
  · intro hu ho
    obtain ⟨i, h1, h2, h3⟩ := hd.lowest (fun i hi => by rw [h.inX] at hi; rw [ha i hi]; exact hu i hi)
      ((ha.oriented hw hc h).2 ho)
    rw [h.inX] at h1
    refine ⟨i, h1, ?_, by rw [h3, ha.eHz h1]⟩
    intro j hj
    have := h2 j ((h.inX ..).2 hj)
    rwa [ha.eHz h1, ha.eHz hj] at this

theorem done_local2 (w1 w2 w3 : World) (c : List Str) (hw : WF w1) (hc : IsComp w1 c) (h : EFrame w1 w2)
    (ha : AgreeOn w2 w3 c) (hd : Done w1 w2 (· ∈ c)) : Done w1 w3 (· ∈ c) := by
  have hx : ∀ i, InX w1 (· ∈ c) i → w3.eHz i = w2.eHz i := fun i hi => ha.eHz ((h.inX ..).2 hi)
  refine ⟨?_, ?_, ?_, ?_⟩
  · intro n m t f hn he
    obtain ⟨a, b⟩ := he.inX hw (X := (· ∈ c)) hn (hc.closed hn he)
    rw [hx _ a, hx _ b]
    exact hd.real n m t f hn he
  · intro i hi hf
    rw [hx i hi]; exact hd.kept i hi hf
  · intro n m t f i hn he hnm hi
    rw [ha i ((h.inX ..).2 ⟨n, hn, hi⟩)]
    exact hd.pinned n m t f i hn he hnm hi
  · intro hu ho
    obtain ⟨i, h1, h2, h3⟩ := hd.lowest hu ho
    exact ⟨i, h1, h2, by rw [hx i h1, h3]⟩

theorem IsComp.eq_conn {w : World} (hw : WF w) {c : List Str} (hc : IsComp w c) {v : Str} (hv : v ∈ c) :
    (fun n => n ∈ c) = SetConn w v := by
  funext n
  apply propext
  constructor
  · intro hn; exact hc.conn hw hv hn
  · intro hn
    obtain ⟨_, v0, _, h0⟩ := hc
    exact (h0 n).2 (((h0 v).1 hv).trans hn)

/-- Everything about one enforcement: normal return, effect restricted to the triggered groups, and complete
enforcement of the group of `v` if it is ready. -/
theorem enforce_group {w : World} (hw : WF w) {σ : Ord'} (hσ : Shuffles σ) (trig : Option (Str × Str)) (v : Str) :
    ∃ w', enforce σ trig w = (w', .ok ()) ∧ EFrame w w' ∧
      (∀ p, trig = some p → ∀ i, ¬InX w (SetConn w p.1) i → w'.lv i = w.lv i) ∧
      ((∀ p, trig = some p → SetConn w v p.1 ∧ ∃ t f, SetEdge w p.1 p.2 t f) → (∃ m t f, SetEdge w v m t f) →
        Ready w (SetConn w v) → Done w w' (SetConn w v)) := by
  obtain ⟨es, cs, hes, heq, hcomp, hpw, hcov⟩ := enforce_comps hw hσ trig
  rw [heq]
  obtain ⟨w', h1, h2, h3, h4, _⟩ := enfComps_spec hσ (es := es) trig
    (fun w c => WF w ∧ IsComp w c ∧ (v ∈ c → Ready w (SetConn w v) → Ready w (· ∈ c)))
    (fun w w' c => WF w ∧ IsComp w c ∧ (v ∈ c → Ready w (· ∈ c) → Done w w' (· ∈ c))) False
    (by
      rintro w1 w2 c hf ha ⟨h1, h2, h3⟩
      refine ⟨h1.frame hf.frame, (hf.isComp c).2 h2, ?_⟩
      intro hv hr
      rw [((hf.isComp c).2 h2).eq_conn (h1.frame hf.frame) hv]
      exact hr)
    (by
      rintro w1 w2 w3 c hf ha ⟨h1, h2, h3⟩
      have hb : EFrame w2 w1 := by
        refine ⟨hf.g.symm, hf.tr.symm, hf.ntr.symm, hf.nlv.symm, hf.I.symm, hf.B.symm, hf.hf.symm, hf.zl.symm,
          hf.lalias.symm, hf.talias.symm, ?_⟩
        intro i
        obtain ⟨E, b, h⟩ := hf.lv i
        exact ⟨(w1.lv i).levelHz, (w1.lv i).fixed, by rw [h]⟩
      refine ⟨h1.frame hb.frame, (hf.isComp c).1 h2, fun hv hr => ?_⟩
      exact done_local1 w1 w2 w3 c (h1.frame hb.frame) ((hf.isComp c).1 h2) hf ha
        (h3 hv (ready_local w1 w2 c hf ha hr)))
    (by
      rintro w1 w2 w3 c hf hf' ha ⟨h1, h2, h3⟩
      exact ⟨h1, h2, fun hv hr => done_local2 w1 w2 w3 c h1 h2 hf ha (h3 hv hr)⟩)
    (by
      rintro w c hw' hes' hc ⟨_, _, hP⟩
      by_cases hr : v ∈ c ∧ Ready w (· ∈ c)
      · obtain ⟨w', e1, e2, e3⟩ := enfComp_good hw' hes' hσ hc hr.2
        exact ⟨w', e1, ⟨hw', hc, fun _ _ => e2⟩, fun h => h.elim⟩
      · obtain ⟨w', e1, e2, e3⟩ := enfComp_frame' hw' hes' hσ hc
        exact ⟨w', e1, ⟨hw', hc, fun h1 h2 => absurd ⟨h1, h2⟩ hr⟩, fun h => h.elim⟩)
    cs w hw hes hcomp hpw
    (fun c hc _ => ⟨hw, hcomp c hc, fun hv hr => by rw [(hcomp c hc).eq_conn hw hv]; exact hr⟩)
  refine ⟨w', h1, h2, ?_, ?_⟩
  · rintro p rfl i hi
    apply h3
    rintro ⟨c, hc, ht, hx⟩
    rw [triggered_some hw hes] at ht
    rw [(hcomp c hc).eq_conn hw ht.1] at hx
    exact hi hx
  · intro htr ⟨m, t, f, he⟩ hr
    obtain ⟨c, hc, hv⟩ := hcov v m t f he
    have htc : triggered w.g es c trig = true := by
      cases trig with
      | none => rfl
      | some p =>
        obtain ⟨q1, q2⟩ := htr p rfl
        rw [triggered_some hw hes]
        exact ⟨by
          have := congrFun ((hcomp c hc).eq_conn hw hv) p.1
          exact this.symm ▸ q1, q2⟩
    have he' := (hcomp c hc).eq_conn hw hv
    have hQ := (h4 c hc htc).2.2 hv (by rw [he']; exact hr)
    rw [he'] at hQ
    exact hQ

/-- Silence: if every triggered group is ready or unpinned, there is no warning. -/
theorem enforce_silent {w : World} (hw : WF w) {σ : Ord'} (hσ : Shuffles σ) (trig : Option (Str × Str))
    (hq : ∀ v, (∃ m t f, SetEdge w v m t f) → (∀ p, trig = some p → SetConn w v p.1) →
      Ready w (SetConn w v) ∨ ∀ i, InX w (SetConn w v) i → (w.lv i).fixed = false) :
    ∃ w', enforce σ trig w = (w', .ok ()) ∧ w'.warned = w.warned := by
  obtain ⟨es, cs, hes, heq, hcomp, hpw, hcov⟩ := enforce_comps hw hσ trig
  rw [heq]
  obtain ⟨w', h1, _, _, _, h5⟩ := enfComps_spec hσ (es := es) trig
    (fun w c => Ready w (· ∈ c) ∨ ∀ i, InX w (· ∈ c) i → (w.lv i).fixed = false)
    (fun _ _ _ => True) True
    (by
      rintro w1 w2 c hf ha (h | h)
      · exact .inl (ready_local w1 w2 c hf ha h)
      · right
        intro i hi
        rw [hf.inX] at hi
        rw [ha i hi]; exact h i hi)
    (fun _ _ _ _ _ _ _ => trivial) (fun _ _ _ _ _ _ _ _ => trivial)
    (by
      rintro w c hw' hes' hc (h | h)
      · obtain ⟨w', e1, e2, e3⟩ := enfComp_good hw' hes' hσ hc h
        exact ⟨w', e1, trivial, fun _ => e3⟩
      · obtain ⟨w', e1, e2⟩ := enfComp_quiet hw' hes' hσ hc h
        exact ⟨w', e1, trivial, fun _ => e2⟩)
    cs w hw hes hcomp hpw
    (by
      intro c hc ht
      obtain ⟨_, v, hv0, hv⟩ := hcomp c hc
      have hvc : v ∈ c := (hv v).2 .refl
      rw [(hcomp c hc).eq_conn hw hvc]
      refine hq v hv0 ?_
      rintro p rfl
      rw [triggered_some hw hes] at ht
      exact (hv p.1).1 ht.1)
  exact ⟨w', h1, h5 trivial⟩

end World
end AtomTk
