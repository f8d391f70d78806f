import Verif.Proofs.SetFreq
import Mathlib.Combinatorics.SimpleGraph.Acyclic

/-! # Changing one frequency of a fully pinned tree of set transitions -/

namespace AtomTk
open Util
namespace World

theorem enfComps_skip {σ : Ord'} {es : List (Str × Str)} {p : Str × Str} : ∀ (cs : List (List Str)) (w : World),
    (∀ c ∈ cs, triggered w.g es c (some p) = false) → enfComps σ es (some p) cs w = (w, .ok ()) := by
  intro cs
  induction cs with
  | nil => intro w _; rfl
  | cons c cs ih =>
    intro w h
    unfold enfComps
    rw [h c (by simp)]
    exact ih w (fun d hd => h d (by simp [hd]))

/-- With a triggering transition exactly its own component is searched. -/
theorem enforce_search {w : World} (hw : WF w) {σ : Ord'} (hσ : Shuffles σ) {p : Str × Str} {t : Nat} {f : ℚ}
    (he : SetEdge w p.1 p.2 t f) :
    ∃ es s is out, EsOk w es ∧ SetConn w p.1 s ∧ w.g.lev s = some is ∧
      (∀ i, InX w (SetConn w p.1) i → w.eHz is ≤ w.eHz i) ∧
      Graph.Grow (subNbrs w.g es) [s] out ∧ (∀ n, SetConn w p.1 n → n = s ∨ n ∈ out.map Prod.snd) ∧
      enforce σ (some p) w = enfEdges out w := by
  obtain ⟨es, cs, hes, heq, hcomp, hpw, hcov⟩ := enforce_comps hw hσ (some p)
  obtain ⟨c, hc, hpc⟩ := hcov _ _ _ _ he
  have hconn := (hcomp c hc).eq_conn hw hpc
  obtain ⟨s, is, out, h1, h2, h3, h4, h5, h6⟩ := enfComp_search hw hes hσ (hcomp c hc)
  rw [hconn] at h3
  have hmem : ∀ n, n ∈ c ↔ SetConn w p.1 n := fun n => iff_of_eq (congrFun hconn n)
  refine ⟨es, s, is, out, hes, (hmem s).1 h1, h2, h3, h4, fun n hn => h5 n ((hmem n).2 hn), ?_⟩
  rw [heq, ← h6]
  have htr : triggered w.g es c (some p) = true := (triggered_some hw hes c p).2 ⟨hpc, t, f, he⟩
  -- the other components are not triggered
  have key : ∀ cs : List (List Str), c ∈ cs → cs.Pairwise (fun c d => ∀ x ∈ c, x ∉ d) →
      enfComps σ es (some p) cs w = enfComp σ es c w := by
    intro cs
    induction cs with
    | nil => simp
    | cons d cs ih =>
      intro hm hp
      rw [List.pairwise_cons] at hp
      have hoff : ∀ e : List Str, p.1 ∉ e → ∀ g, g = w.g → triggered g es e (some p) = false := by
        rintro e hpe g rfl
        rw [Bool.eq_false_iff]
        intro hte
        exact hpe ((triggered_some hw hes e p).1 hte).1
      by_cases hcd : c = d
      · subst hcd
        obtain ⟨w1, g1, g2, _⟩ := enfComp_frame' hw hes hσ (hcomp c hc)
        unfold enfComps
        rw [if_pos htr, PyM.bind_ok g1, g1]
        apply enfComps_skip
        intro e hemem
        exact hoff e (fun hpe => hp.1 e hemem p.1 hpc hpe) _ g2.g
      · have hm' : c ∈ cs := by
          rcases List.mem_cons.1 hm with h | h
          · exact absurd h hcd
          · exact h
        unfold enfComps
        rw [hoff d (fun hpd => hp.1 c hm' p.1 hpd hpc) _ rfl]
        exact ih hm' hp.2
  exact key cs hc hpw

/-- Connected through set transitions other than `t`. -/
abbrev ConnOff (w : World) (t : Nat) : Str → Str → Prop :=
  Relation.ReflTransGen (fun a b => ∃ t' f', t' ≠ t ∧ SetEdge w a b t' f')

theorem ConnOff.symm {w : World} (hw : WF w) {t : Nat} {a b : Str} (h : ConnOff w t a b) : ConnOff w t b a := by
  induction h with
  | refl => exact .refl
  | tail _ hbc ih =>
    obtain ⟨t', f', hne, h⟩ := hbc
    exact .head ⟨t', f', hne, h.symm hw⟩ ih

/-- In a loop-free group the two ends of `t` are not connected otherwise. -/
theorem LoopFree.connOff {w : World} (hw : WF w) {X : Str → Prop} (h : LoopFree w X)
    (hcl : ∀ n m t f, X n → SetEdge w n m t f → X m) {a b : Str} {t : Nat} {f : ℚ} (he : SetEdge w a b t f) (ha : X a) :
    ¬ConnOff w t a b := by
  intro hc
  have hab : a ≠ b := by
    rintro rfl
    exact h.2 a t f ha he
  have hac := h.1
  rw [SimpleGraph.isAcyclic_iff_forall_adj_isBridge] at hac
  set G := SimpleGraph.fromRel (fun a b => X a ∧ X b ∧ ∃ t f, SetEdge w a b t f) with hG
  have hadj : G.Adj a b := by
    rw [hG, SimpleGraph.fromRel_adj]
    exact ⟨hab, .inl ⟨ha, hcl _ _ _ _ ha he, t, f, he⟩⟩
  have hbr := hac hadj
  rw [SimpleGraph.isBridge_iff] at hbr
  apply hbr
  have : ∀ n, ConnOff w t a n → X n ∧ (G.deleteEdges {s(a, b)}).Reachable a n := by
    intro n hn
    induction hn with
    | refl => exact ⟨ha, .refl _⟩
    | @tail n m _ hnm ih =>
      obtain ⟨t', f', hne, he'⟩ := hnm
      obtain ⟨hxn, hr⟩ := ih
      have hxm := hcl _ _ _ _ hxn he'
      refine ⟨hxm, hr.trans (SimpleGraph.Adj.reachable ?_)⟩
      have hnm : n ≠ m := by
        rintro rfl
        exact h.2 n t' f' hxn he'
      rw [SimpleGraph.deleteEdges_adj]
      refine ⟨?_, ?_⟩
      · rw [hG, SimpleGraph.fromRel_adj]
        exact ⟨hnm, .inl ⟨hxn, hxm, t', f', he'⟩⟩
      · rw [Set.mem_singleton_iff, Sym2.eq_iff]
        rintro (⟨rfl, rfl⟩ | ⟨rfl, rfl⟩)
        · have := he'.1.symm.trans he.1
          exact hne (Option.some.inj this)
        · have := he'.1.symm.trans (he.symm hw).1
          exact hne (Option.some.inj this)
  exact (this b hc).2

/-- What the search knows about the transition `t` between the near end `z` and the far end `y`. -/
structure Front (w : World) (t : Nat) (s z y : Str) (vis : List Str) : Prop where
  off : ∀ n ∈ vis, ConnOff w t s n ∨ y ∈ vis
  near : y ∈ vis → z ∈ vis

theorem Front.start {w : World} {t : Nat} {s z y : Str} (hs : s ≠ y) : Front w t s z y [s] :=
  ⟨by intro n hn; rw [List.mem_singleton] at hn; subst hn; exact .inl .refl,
    by intro h; rw [List.mem_singleton] at h; exact absurd h.symm hs⟩

/-- The far end is discovered through `t`, and `t` serves for nothing else. -/
theorem Front.far {w : World} (hw : WF w) {t : Nat} {s z y : Str} {vis : List Str} (h : Front w t s z y vis)
    (hz : ConnOff w t s z) (hzy : ¬ConnOff w t z y) {f : ℚ} (hT : SetEdge w z y t f) {p c : Str} {t' : Nat} {f' : ℚ} (hp : p ∈ vis)
    (hc : c ∉ vis) (he : SetEdge w p c t' f') : (c = y ↔ t' = t) ∧ (c = y → p = z) ∧ Front w t s z y (c :: vis) := by
  have h1 : c = y → t' = t := by
    rintro rfl
    by_contra hne
    rcases h.off p hp with ho | ho
    · exact hzy ((ConnOff.symm hw hz).trans (ho.tail ⟨t', f', hne, he⟩))
    · exact hc ho
  have hends : t' = t → (p = z ∧ c = y) ∨ (p = y ∧ c = z) := by
    rintro rfl
    obtain ⟨i, j, hi, hj, hij⟩ := he.levels hw
    obtain ⟨a, b, ha, hb, hab⟩ := hT.levels hw
    rcases hij with ⟨rfl, rfl⟩ | ⟨rfl, rfl⟩ <;> rcases hab with ⟨rfl, rfl⟩ | ⟨rfl, rfl⟩
    · exact .inl ⟨lev_inj hw hi ha, lev_inj hw hj hb⟩
    · exact .inr ⟨lev_inj hw hi hb, lev_inj hw hj ha⟩
    · exact .inr ⟨lev_inj hw hi hb, lev_inj hw hj ha⟩
    · exact .inl ⟨lev_inj hw hi ha, lev_inj hw hj hb⟩
  have h2 : t' = t → p = z ∧ c = y := by
    intro e
    rcases hends e with h' | ⟨rfl, rfl⟩
    · exact h'
    · exact absurd (h.near hp) hc
  refine ⟨⟨h1, fun e => (h2 e).2⟩, fun e => (h2 (h1 e)).1, ?_, ?_⟩
  · intro n hn
    rcases List.mem_cons.1 hn with rfl | hn
    · by_cases e : t' = t
      · exact .inr (by rw [(h2 e).2]; simp)
      · rcases h.off p hp with ho | ho
        · exact .inl (ho.tail ⟨t', f', e, he⟩)
        · exact .inr (by simp [ho])
    · rcases h.off n hn with ho | ho
      · exact .inl ho
      · exact .inr (by simp [ho])
  · intro hy
    rcases List.mem_cons.1 hy with e | hy
    · rw [← (h2 (h1 e.symm)).1]; simp [hp]
    · simp [h.near hy]

/-- A step between two pinned levels at the set distance changes no energy. -/
theorem enfStep_met (w : World) {l up : Nat} {f : ℚ} (hu : (w.lv up).fixed = true)
    (hf : 0 ≤ f) (h : w.eHz up - w.eHz l = f) (k : Nat) : (enfStep w l up f).eHz k = w.eHz k := by
  rw [eHz_enfStep, if_neg, if_pos hu]
  · split
    · rename_i e; rw [e]; linarith
    · rfl
  · rintro ⟨_, _, h3⟩
    apply h3
    rw [abs_sub_comm, h, abs_of_nonneg hf]

/-- A step between two pinned levels not at the set distance changes no energy. -/
theorem enfStep_warn (w : World) {l up : Nat} {f : ℚ} (hl : (w.lv l).fixed = true) (hu : (w.lv up).fixed = true)
    (h : f ≠ |w.eHz l - w.eHz up|) (k : Nat) : (enfStep w l up f).eHz k = w.eHz k := by
  rw [eHz_enfStep, if_pos ⟨hl, hu, h⟩]

theorem fixed_enfStep_mono (w : World) (l up : Nat) (f : ℚ) (k : Nat) (h : (w.lv k).fixed = true) :
    ((enfStep w l up f).lv k).fixed = true := by
  rw [fixed_enfStep]; split
  · rfl
  · exact h

/-- The search when the changed transition is met from its upper end: nothing moves, one warning. -/
theorem enfEdges_stuck {w0 : World} (hw : WF w0) (X : Str → Prop) {t : Nat} {f : ℚ} {s : Str}
    (hT : SetEdge w0 (w0.lname (w0.tr t).upper) (w0.lname (w0.tr t).lower) t f)
    (hs : ConnOff w0 t s (w0.lname (w0.tr t).upper))
    (hzy : ¬ConnOff w0 t (w0.lname (w0.tr t).upper) (w0.lname (w0.tr t).lower))
    (hf : f ≠ |w0.eHz (w0.tr t).lower - w0.eHz (w0.tr t).upper|)
    (hmet : ∀ n m t' f', X n → SetEdge w0 n m t' f' → t' ≠ t →
      0 ≤ f' ∧ w0.eHz (w0.tr t').upper - w0.eHz (w0.tr t').lower = f')
    {nb : Str → List Str} {vis : List Str} {out : List (Str × Str)} (hg : Graph.Grow nb vis out) : ∀ (v : World), EFrame w0 v →
    (∀ n m, X n → m ∈ nb n → ∃ t f, SetEdge w0 n m t f) → (∀ n m, X n → m ∈ nb n → X m) → (∀ n ∈ vis, X n) →
    Front w0 t s (w0.lname (w0.tr t).upper) (w0.lname (w0.tr t).lower) vis →
    (∀ i, InX w0 X i → v.eHz i = w0.eHz i) → (∀ i, InX w0 X i → i ≠ (w0.tr t).upper → (v.lv i).fixed = true) →
    (w0.lname (w0.tr t).upper ∈ vis → (v.lv (w0.tr t).upper).fixed = true) →
    ∃ w', enfEdges out v = (w', .ok ()) ∧ (∀ i, InX w0 X i → w'.eHz i = w0.eHz i) ∧
      w'.warned = v.warned + (if w0.lname (w0.tr t).lower ∈ out.map Prod.snd then 1 else 0) := by
  obtain ⟨_, _, hlL, hlU, _⟩ := hw.edge _ _ _ hT.1
  induction hg with
  | nil vis => intro v _ _ _ _ _ h _ _; exact ⟨v, rfl, h, by simp⟩
  | @cons vis p c out h1 h2 h3 h4 ih =>
    intro v hfr hnb hX hvis hfront hE hpin hu
    obtain ⟨t', f', he⟩ := hnb p c (hvis p h1) h3
    have hev : SetEdge v p c t' f' := (hfr.setEdge ..).2 he
    have hstep := enfEdge_eq hev
    rw [hfr.tr] at hstep
    obtain ⟨hcy, hpz, hfront'⟩ := hfront.far hw hs hzy hT h1 h2 he
    obtain ⟨a, b, ha, hb, hab⟩ := he.levels hw
    have hxp := hvis p h1
    have hxc := hX p c hxp h3
    have hInX := he.inX hw hxp hxc
    have hpc : p ≠ c := fun e => h2 (e ▸ h1)
    have hab' : a ≠ b := fun e => hpc (lev_inj hw ha (e ▸ hb))
    have hlu : (w0.tr t').lower ≠ (w0.tr t').upper := by
      rcases hab with ⟨e1, e2⟩ | ⟨e1, e2⟩
      · rw [← e1, ← e2]; exact hab'
      · rw [← e1, ← e2]; exact hab'.symm
    have hfr' : EFrame w0 (enfStep v (w0.tr t').lower (w0.tr t').upper f') :=
      EFrame.trans _ _ _ hfr (enfStep_eframe ..)
    -- energies and warnings after the step
    have hres : (∀ i, InX w0 X i → (enfStep v (w0.tr t').lower (w0.tr t').upper f').eHz i = w0.eHz i) ∧
        (enfStep v (w0.tr t').lower (w0.tr t').upper f').warned = v.warned + (if c = w0.lname (w0.tr t).lower then 1 else 0) := by
      by_cases ht : t' = t
      · have hcl := hcy.2 ht
        have hpu : p = w0.lname (w0.tr t).upper := hpz hcl
        subst ht
        have hff : f' = f := by
          have := he.2.symm.trans hT.2
          exact Option.some.inj this
        subst hff
        have hfu : (v.lv (w0.tr t').upper).fixed = true := hu (hpu ▸ h1)
        have hfl : (v.lv (w0.tr t').lower).fixed = true := hpin _ hInX.1 hlu
        have hne : f' ≠ |v.eHz (w0.tr t').lower - v.eHz (w0.tr t').upper| := by
          rw [hE _ hInX.1, hE _ hInX.2]; exact hf
        refine ⟨fun i hi => ?_, ?_⟩
        · rw [enfStep_warn v hfl hfu hne, hE i hi]
        · rw [warned_enfStep, if_pos ⟨hfl, hfu, hne⟩, if_pos hcl]
      · obtain ⟨h0, hm⟩ := hmet p c t' f' hxp he ht
        have hone : (v.lv (w0.tr t').lower).fixed = true ∨ (v.lv (w0.tr t').upper).fixed = true := by
          by_cases e : (w0.tr t').lower = (w0.tr t).upper
          · right
            apply hpin _ hInX.2
            rw [← e]; exact hlu.symm
          · exact .inl (hpin _ hInX.1 e)
        obtain ⟨s1, s2, s3⟩ := enfStep_good v _ _ f' w0.eHz h0 hm hlu (fun _ => hE _ hInX.1) (fun _ => hE _ hInX.2) hone
        refine ⟨fun i hi => ?_, ?_⟩
        · by_cases e1 : i = (w0.tr t').lower
          · rw [e1]; exact s2
          · by_cases e2 : i = (w0.tr t').upper
            · rw [e2]; exact s3
            · unfold eHz
              rw [lv_enfStep_ne _ _ _ _ _ e1 e2]
              exact hE i hi
        · rw [s1, if_neg (fun e => ht (hcy.1 e))]; simp
    obtain ⟨w', e1, e2, e3⟩ := ih _ hfr' hnb hX
      (by
        intro n hn
        rcases List.mem_cons.1 hn with rfl | hn
        · exact hxc
        · exact hvis n hn) hfront' hres.1
      (fun i hi hiu => fixed_enfStep_mono _ _ _ _ _ (hpin i hi hiu))
      (by
        intro hmem
        rcases List.mem_cons.1 hmem with e | hmem
        · have hbu : b = (w0.tr t).upper := by
            rw [← e] at hb
            exact Option.some.inj (hb.symm.trans hlU)
          rw [fixed_enfStep, if_pos]
          rcases hab with ⟨_, x⟩ | ⟨_, x⟩
          · exact .inr (hbu.symm.trans x)
          · exact .inl (hbu.symm.trans x)
        · exact fixed_enfStep_mono _ _ _ _ _ (hu hmem))
    refine ⟨w', ?_, e2, ?_⟩
    · unfold enfEdges
      rw [PyM.bind_ok hstep]
      exact e1
    · rw [e3, hres.2]
      have hnot : c ∉ out.map Prod.snd := by
        have : ∀ {vis : List Str} {out : List (Str × Str)}, Graph.Grow nb vis out → ∀ n ∈ vis, n ∉ out.map Prod.snd := by
          intro vis out hg
          induction hg with
          | nil vis => simp
          | @cons vis p c out h1 h2 h3 h4 ih =>
            intro n hn
            simp only [List.map_cons, List.mem_cons, not_or]
            exact ⟨fun e => h2 (e ▸ hn), ih n (by simp [hn])⟩
        exact this h4 c (by simp)
      by_cases e : c = w0.lname (w0.tr t).lower
      · rw [← e, if_pos rfl, if_neg hnot, if_pos (by simp)]
      · have : (w0.lname (w0.tr t).lower ∈ ((p, c) :: out).map Prod.snd) ↔ w0.lname (w0.tr t).lower ∈ out.map Prod.snd := by
          simp only [List.map_cons, List.mem_cons]
          exact ⟨fun h => h.resolve_left (fun h => e h.symm), .inr⟩
        rw [if_neg e]
        simp only [this]
        omega

/-- The search reaches `t` from below and moves its upper level to the new frequency; the set transitions at that level may be met or not in its new
place, but must not be met upside down. -/
theorem enfEdges_moved' {w0 : World} (hw : WF w0) (X : Str → Prop) {t : Nat} {f : ℚ} {s : Str}
    (hT : SetEdge w0 (w0.lname (w0.tr t).lower) (w0.lname (w0.tr t).upper) t f)
    (hs : ConnOff w0 t s (w0.lname (w0.tr t).lower))
    (hzy : ¬ConnOff w0 t (w0.lname (w0.tr t).lower) (w0.lname (w0.tr t).upper))
    (hmet : ∀ n m t' f', X n → SetEdge w0 n m t' f' → t' ≠ t → (w0.tr t').lower ≠ (w0.tr t).upper → (w0.tr t').upper ≠ (w0.tr t).upper →
      0 ≤ f' ∧ w0.eHz (w0.tr t').upper - w0.eHz (w0.tr t').lower = f')
    (hlo : ∀ n m t' f', X n → SetEdge w0 n m t' f' → t' ≠ t → (w0.tr t').lower = (w0.tr t).upper →
      0 ≤ f' ∧ w0.eHz (w0.tr t').upper - (w0.eHz (w0.tr t).lower + f) = f' ∨
      |w0.eHz (w0.tr t').upper - (w0.eHz (w0.tr t).lower + f)| ≠ f')
    (hhi : ∀ n m t' f', X n → SetEdge w0 n m t' f' → t' ≠ t → (w0.tr t').upper = (w0.tr t).upper →
      0 ≤ f' ∧ w0.eHz (w0.tr t).lower + f - w0.eHz (w0.tr t').lower = f' ∨
      |w0.eHz (w0.tr t).lower + f - w0.eHz (w0.tr t').lower| ≠ f')
    {nb : Str → List Str} {vis : List Str} {out : List (Str × Str)} (hg : Graph.Grow nb vis out) : ∀ (v : World), EFrame w0 v →
    (∀ n m, X n → m ∈ nb n → ∃ t f, SetEdge w0 n m t f) → (∀ n m, X n → m ∈ nb n → X m) → (∀ n ∈ vis, X n) →
    Front w0 t s (w0.lname (w0.tr t).lower) (w0.lname (w0.tr t).upper) vis →
    (∀ i, InX w0 X i → i ≠ (w0.tr t).upper → v.eHz i = w0.eHz i ∧ (v.lv i).fixed = true) →
    (w0.lname (w0.tr t).upper ∈ vis →
      (v.lv (w0.tr t).upper).fixed = true ∧ v.eHz (w0.tr t).upper = w0.eHz (w0.tr t).lower + f) →
    (w0.lname (w0.tr t).upper ∉ vis → (v.lv (w0.tr t).upper).fixed = false) →
    ∃ w', enfEdges out v = (w', .ok ()) ∧ (∀ i, InX w0 X i → i ≠ (w0.tr t).upper → w'.eHz i = w0.eHz i) ∧
      (w0.lname (w0.tr t).upper ∈ vis ∨ w0.lname (w0.tr t).upper ∈ out.map Prod.snd →
        w'.eHz (w0.tr t).upper = w0.eHz (w0.tr t).lower + f ∧ (w'.lv (w0.tr t).upper).fixed = true) := by
  obtain ⟨_, _, hlL, hlU, _⟩ := hw.edge _ _ _ hT.1
  induction hg with
  | nil vis => intro v _ _ _ _ _ h hu _; exact ⟨v, rfl, fun i hi hiu => (h i hi hiu).1, fun h => (hu (by simpa using h)).symm⟩
  | @cons vis p c out h1 h2 h3 h4 ih =>
    intro v hfr hnb hX hvis hfront hE hin hnot
    obtain ⟨t', f', he⟩ := hnb p c (hvis p h1) h3
    have hev : SetEdge v p c t' f' := (hfr.setEdge ..).2 he
    have hstep := enfEdge_eq hev
    rw [hfr.tr] at hstep
    obtain ⟨hcy, hpz, hfront'⟩ := hfront.far hw hs hzy hT h1 h2 he
    obtain ⟨a, b, ha, hb, hab⟩ := he.levels hw
    have hxp := hvis p h1
    have hxc := hX p c hxp h3
    have hInX := he.inX hw hxp hxc
    have hpc : p ≠ c := fun e => h2 (e ▸ h1)
    have hab' : a ≠ b := fun e => hpc (lev_inj hw ha (e ▸ hb))
    have hlu : (w0.tr t').lower ≠ (w0.tr t').upper := by
      rcases hab with ⟨e1, e2⟩ | ⟨e1, e2⟩
      · rw [← e1, ← e2]; exact hab'
      · rw [← e1, ← e2]; exact hab'.symm
    have hfr' : EFrame w0 (enfStep v (w0.tr t').lower (w0.tr t').upper f') :=
      EFrame.trans _ _ _ hfr (enfStep_eframe ..)
    have hau : p = w0.lname (w0.tr t).upper ↔ a = (w0.tr t).upper := by
      constructor
      · intro e; rw [e] at ha; exact Option.some.inj (ha.symm.trans hlU)
      · intro e; rw [e] at ha; exact lev_inj hw ha hlU
    have hbu : c = w0.lname (w0.tr t).upper ↔ b = (w0.tr t).upper := by
      constructor
      · intro e; rw [e] at hb; exact Option.some.inj (hb.symm.trans hlU)
      · intro e; rw [e] at hb; exact lev_inj hw hb hlU
    have hres : (∀ i, InX w0 X i → i ≠ (w0.tr t).upper → (enfStep v (w0.tr t').lower (w0.tr t').upper f').eHz i = w0.eHz i) ∧
        (w0.lname (w0.tr t).upper ∈ c :: vis →
          (enfStep v (w0.tr t').lower (w0.tr t').upper f').eHz (w0.tr t).upper = w0.eHz (w0.tr t).lower + f) := by
      by_cases ht : t' = t
      · have hcu := hcy.2 ht
        subst ht
        have hff : f' = f := by
          have := he.2.symm.trans hT.2
          exact Option.some.inj this
        subst hff
        have hnu : (v.lv (w0.tr t').upper).fixed = false := hnot (hcu ▸ h2)
        have hE' := (hE _ hInX.1 hlu).1
        refine ⟨fun i hi hiu => ?_, fun _ => ?_⟩
        · rw [eHz_enfStep, if_neg (by rw [hnu]; simp), if_neg (by rw [hnu]; simp), if_neg hiu, (hE i hi hiu).1]
        · rw [eHz_enfStep, if_neg (by rw [hnu]; simp), if_neg (by rw [hnu]; simp), if_pos rfl, hE']
      · have hcu : c ≠ w0.lname (w0.tr t).upper := fun e => ht (hcy.1 e)
        -- no energy changes
        have hsame : ∀ k, (enfStep v (w0.tr t').lower (w0.tr t').upper f').eHz k = v.eHz k := by
          by_cases hpu : p = w0.lname (w0.tr t).upper
          · obtain ⟨hfu, heu⟩ := hin (hpu ▸ h1)
            have hau' := hau.1 hpu
            have hbu' : b ≠ (w0.tr t).upper := fun e => hcu (hbu.2 e)
            rcases hab with ⟨x1, x2⟩ | ⟨x1, x2⟩
            · -- the upper end of t is the lower end of t'
              have hl : (w0.tr t').lower = (w0.tr t).upper := x1.symm.trans hau'
              obtain ⟨hEc, hfc⟩ := hE _ hInX.2 (by rw [← x2]; exact hbu')
              rw [hl]
              rcases hlo p c t' f' hxp he ht hl with ⟨h0, hm⟩ | hm
              · exact enfStep_met v hfc h0 (by rw [hEc, heu]; exact hm)
              · refine enfStep_warn v hfu hfc ?_
                rw [hEc, heu, abs_sub_comm]
                exact fun e => hm e.symm
            · have hl : (w0.tr t').upper = (w0.tr t).upper := x1.symm.trans hau'
              obtain ⟨hEc, hfc⟩ := hE _ hInX.1 (by rw [← x2]; exact hbu')
              rw [hl]
              rcases hhi p c t' f' hxp he ht hl with ⟨h0, hm⟩ | hm
              · exact enfStep_met v hfu h0 (by rw [hEc, heu]; exact hm)
              · refine enfStep_warn v hfc hfu ?_
                rw [hEc, heu, abs_sub_comm]
                exact fun e => hm e.symm
          · have hau' : a ≠ (w0.tr t).upper := fun e => hpu (hau.2 e)
            have hbu' : b ≠ (w0.tr t).upper := fun e => hcu (hbu.2 e)
            have hl : (w0.tr t').lower ≠ (w0.tr t).upper := by
              rcases hab with ⟨x1, x2⟩ | ⟨x1, x2⟩
              · rw [← x1]; exact hau'
              · rw [← x2]; exact hbu'
            have hu' : (w0.tr t').upper ≠ (w0.tr t).upper := by
              rcases hab with ⟨x1, x2⟩ | ⟨x1, x2⟩
              · rw [← x2]; exact hbu'
              · rw [← x1]; exact hau'
            obtain ⟨h0, hm⟩ := hmet p c t' f' hxp he ht hl hu'
            obtain ⟨q1, q2⟩ := hE _ hInX.1 hl
            obtain ⟨q3, q4⟩ := hE _ hInX.2 hu'
            exact enfStep_met v q4 h0 (by rw [q1, q3]; exact hm)
        refine ⟨fun i hi hiu => by rw [hsame]; exact (hE i hi hiu).1, fun hmem => ?_⟩
        rw [hsame]
        rcases List.mem_cons.1 hmem with e | hmem
        · exact absurd e.symm hcu
        · exact (hin hmem).2
    obtain ⟨w', e1, e2, e3⟩ := ih _ hfr' hnb hX
      (by
        intro n hn
        rcases List.mem_cons.1 hn with rfl | hn
        · exact hxc
        · exact hvis n hn) hfront'
      (fun i hi hiu => ⟨hres.1 i hi hiu, fixed_enfStep_mono _ _ _ _ _ (hE i hi hiu).2⟩)
      (by
        intro hmem
        refine ⟨?_, hres.2 hmem⟩
        rcases List.mem_cons.1 hmem with e | hmem
        · have hbu' := hbu.1 e.symm
          rw [fixed_enfStep, if_pos]
          rcases hab with ⟨_, x⟩ | ⟨_, x⟩
          · exact .inr (hbu'.symm.trans x)
          · exact .inl (hbu'.symm.trans x)
        · exact fixed_enfStep_mono _ _ _ _ _ (hin hmem).1)
      (by
        intro hmem
        simp only [List.mem_cons, not_or] at hmem
        rw [fixed_enfStep, if_neg]
        · exact hnot hmem.2
        · have q1 : p ≠ w0.lname (w0.tr t).upper := fun e => hmem.2 (e ▸ h1)
          have q2 : c ≠ w0.lname (w0.tr t).upper := fun e => hmem.1 e.symm
          rw [Ne, hau] at q1
          rw [Ne, hbu] at q2
          rintro (e | e) <;> rcases hab with ⟨x1, x2⟩ | ⟨x1, x2⟩
          · exact q1 (x1.trans e.symm)
          · exact q2 (x2.trans e.symm)
          · exact q2 (x2.trans e.symm)
          · exact q1 (x1.trans e.symm))
    refine ⟨w', ?_, e2, ?_⟩
    · unfold enfEdges
      rw [PyM.bind_ok hstep]
      exact e1
    · intro hmem
      apply e3
      simp only [List.map_cons, List.mem_cons] at hmem ⊢
      rcases hmem with h | h | h
      · exact .inl (.inr h)
      · exact .inl (.inl h)
      · exact .inr h

/-- The search when the changed transition is met from its lower end: the upper level moves, and nothing else. -/
theorem enfEdges_moved {w0 : World} (hw : WF w0) (X : Str → Prop) {t : Nat} {f : ℚ} {s : Str}
    (hT : SetEdge w0 (w0.lname (w0.tr t).lower) (w0.lname (w0.tr t).upper) t f)
    (hs : ConnOff w0 t s (w0.lname (w0.tr t).lower))
    (hzy : ¬ConnOff w0 t (w0.lname (w0.tr t).lower) (w0.lname (w0.tr t).upper))
    (hmet : ∀ n m t' f', X n → SetEdge w0 n m t' f' → t' ≠ t →
      0 ≤ f' ∧ w0.eHz (w0.tr t').upper - w0.eHz (w0.tr t').lower = f')
    (hbad : ∀ m t' f', t' ≠ t → SetEdge w0 (w0.lname (w0.tr t).upper) m t' f' →
      f = w0.eHz (w0.tr t).upper - w0.eHz (w0.tr t).lower ∨
      2 * f' ≠ |f - (w0.eHz (w0.tr t).upper - w0.eHz (w0.tr t).lower)|)
    {nb : Str → List Str} {vis : List Str} {out : List (Str × Str)} (hg : Graph.Grow nb vis out) : ∀ (v : World), EFrame w0 v →
    (∀ n m, X n → m ∈ nb n → ∃ t f, SetEdge w0 n m t f) → (∀ n m, X n → m ∈ nb n → X m) → (∀ n ∈ vis, X n) →
    Front w0 t s (w0.lname (w0.tr t).lower) (w0.lname (w0.tr t).upper) vis →
    (∀ i, InX w0 X i → i ≠ (w0.tr t).upper → v.eHz i = w0.eHz i ∧ (v.lv i).fixed = true) →
    (w0.lname (w0.tr t).upper ∈ vis →
      (v.lv (w0.tr t).upper).fixed = true ∧ v.eHz (w0.tr t).upper = w0.eHz (w0.tr t).lower + f) →
    (w0.lname (w0.tr t).upper ∉ vis → (v.lv (w0.tr t).upper).fixed = false) →
    ∃ w', enfEdges out v = (w', .ok ()) ∧ (∀ i, InX w0 X i → i ≠ (w0.tr t).upper → w'.eHz i = w0.eHz i) ∧
      (w0.lname (w0.tr t).upper ∈ vis ∨ w0.lname (w0.tr t).upper ∈ out.map Prod.snd →
        w'.eHz (w0.tr t).upper = w0.eHz (w0.tr t).lower + f) := by
  have hat : ∀ n m t' f', SetEdge w0 n m t' f' → (w0.tr t').lower = (w0.tr t).upper ∨ (w0.tr t').upper = (w0.tr t).upper →
      ∃ m, SetEdge w0 (w0.lname (w0.tr t).upper) m t' f' := by
    intro n m t' f' he h
    obtain ⟨_, _, _, _, q5, _⟩ := hw.edge _ _ _ he.1
    rcases h with e | e <;> rw [← e] <;> rcases q5 with ⟨x1, x2⟩ | ⟨x1, x2⟩
    · exact ⟨m, by rw [← x1]; exact he⟩
    · exact ⟨n, by rw [← x2]; exact he.symm hw⟩
    · exact ⟨n, by rw [← x2]; exact he.symm hw⟩
    · exact ⟨m, by rw [← x1]; exact he⟩
  have key := enfEdges_moved' hw X hT hs hzy (fun n m t' f' hn he ht _ _ => hmet n m t' f' hn he ht) ?_ ?_ hg
  · intro v a1 a2 a3 a4 a5 a6 a7 a8
    obtain ⟨w', b1, b2, b3⟩ := key v a1 a2 a3 a4 a5 a6 a7 a8
    exact ⟨w', b1, b2, fun h => (b3 h).1⟩
  · intro n m t' f' hn he ht hl
    obtain ⟨h0, hm⟩ := hmet n m t' f' hn he ht
    obtain ⟨m', hm'⟩ := hat n m t' f' he (.inl hl)
    rw [hl] at hm
    by_cases hd : f = w0.eHz (w0.tr t).upper - w0.eHz (w0.tr t).lower
    · exact .inl ⟨h0, by linarith⟩
    · refine .inr fun hc => (hbad m' t' f' ht hm').resolve_left hd ?_
      rcases abs_cases (w0.eHz (w0.tr t').upper - (w0.eHz (w0.tr t).lower + f)) with ⟨q, q'⟩ | ⟨q, q'⟩
      · exact absurd (by linarith) hd
      · rw [abs_of_nonneg (by linarith)]; linarith
  · intro n m t' f' hn he ht hl
    obtain ⟨h0, hm⟩ := hmet n m t' f' hn he ht
    obtain ⟨m', hm'⟩ := hat n m t' f' he (.inr hl)
    rw [hl] at hm
    by_cases hd : f = w0.eHz (w0.tr t).upper - w0.eHz (w0.tr t).lower
    · exact .inl ⟨h0, by linarith⟩
    · refine .inr fun hc => (hbad m' t' f' ht hm').resolve_left hd ?_
      rcases abs_cases (w0.eHz (w0.tr t).lower + f - w0.eHz (w0.tr t').lower) with ⟨q, q'⟩ | ⟨q, q'⟩
      · exact absurd (by linarith) hd
      · rw [abs_of_nonpos (by linarith)]; linarith


end World
end AtomTk
