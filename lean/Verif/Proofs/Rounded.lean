import Verif.Model.Rounded
import Verif.Proofs.Components
import Verif.Proofs.Forest
import Mathlib.Combinatorics.SimpleGraph.Acyclic

/-! # Enforcement with rounded arithmetic -/

namespace AtomTk
namespace World

/-- The new state after one edge. -/
def enfStepR (rnd : ℚ → ℚ) (w : World) (l up : Nat) (f : ℚ) : World :=
  (((if (w.lv l).fixed = true ∧ (w.lv up).fixed = true ∧ f ≠ |rnd (w.eHz l - w.eHz up)| then
          { w with warned := w.warned + 1 }
        else if (w.lv up).fixed = true then w.setE l (rnd (w.eHz up - f))
        else w.setE up (rnd (w.eHz l + f))).setFixed up true).setFixed l true)

theorem enfEdgeR_eq (rnd : ℚ → ℚ) {w : World} {u v : Str} {t : Nat} {f : ℚ} (h : SetEdge w u v t f) :
    enfEdgeR rnd u v w = (enfStepR rnd w (w.tr t).lower (w.tr t).upper f, .ok ()) := by
  unfold enfEdgeR
  rw [h.1]
  simp only
  rw [h.2]
  rfl

theorem enfStepR_eframe (rnd : ℚ → ℚ) (w : World) (l up : Nat) (f : ℚ) : EFrame w (enfStepR rnd w l up f) := by
  unfold enfStepR
  refine EFrame.trans _ _ _ ?_ (EFrame.trans _ _ _ (setFixed_eframe _ up true) (setFixed_eframe _ _ true))
  split
  · exact warn_eframe w _
  · split
    · exact setE_eframe _ _ _
    · exact setE_eframe _ _ _

theorem lv_enfStepR_ne (rnd : ℚ → ℚ) (w : World) (l up : Nat) (f : ℚ) (k : Nat) (h1 : k ≠ l) (h2 : k ≠ up) :
    (enfStepR rnd w l up f).lv k = w.lv k := by
  unfold enfStepR
  simp only [setFixed, setLv, setE, upd_ne _ _ _ h1, upd_ne _ _ _ h2]
  split
  · rfl
  · split <;> simp only [upd_ne _ _ _ h1, upd_ne _ _ _ h2]

theorem eHz_enfStepR (rnd : ℚ → ℚ) (w : World) (l up : Nat) (f : ℚ) (k : Nat) :
    (enfStepR rnd w l up f).eHz k =
      if (w.lv l).fixed = true ∧ (w.lv up).fixed = true ∧ f ≠ |rnd (w.eHz l - w.eHz up)| then w.eHz k
      else if (w.lv up).fixed = true then (if k = l then rnd (w.eHz up - f) else w.eHz k)
      else (if k = up then rnd (w.eHz l + f) else w.eHz k) := by
  unfold enfStepR
  rw [eHz_setFixed, eHz_setFixed]
  split
  · rfl
  · split
    · rw [eHz_setE]
    · rw [eHz_setE]

theorem fixed_enfStepR (rnd : ℚ → ℚ) (w : World) (l up : Nat) (f : ℚ) (k : Nat) :
    ((enfStepR rnd w l up f).lv k).fixed = if k = l ∨ k = up then true else (w.lv k).fixed := by
  unfold enfStepR
  rw [fixed_setFixed, fixed_setFixed]
  by_cases h1 : k = l
  · simp [h1]
  · by_cases h2 : k = up
    · simp [h2]
    · simp only [h1, h2, if_false, or_self]
      split
      · rfl
      · split
        · rw [fixed_setE]
        · rw [fixed_setE]

theorem warned_enfStepR (rnd : ℚ → ℚ) (w : World) (l up : Nat) (f : ℚ) :
    (enfStepR rnd w l up f).warned =
      if (w.lv l).fixed = true ∧ (w.lv up).fixed = true ∧ f ≠ |rnd (w.eHz l - w.eHz up)| then w.warned + 1 else w.warned := by
  unfold enfStepR
  by_cases h : (w.lv l).fixed = true ∧ (w.lv up).fixed = true ∧ f ≠ |rnd (w.eHz l - w.eHz up)|
  · rw [if_pos h, if_pos h]; rfl
  · rw [if_neg h, if_neg h]
    split <;> rfl

/-- With exact arithmetic the rounded enforcement is the enforcement. -/
theorem enfEdgesR_id (l : List (Str × Str)) : enfEdgesR id l = enfEdges l := by
  induction l with
  | nil => rfl
  | cons p t ih =>
    obtain ⟨u, v⟩ := p
    unfold enfEdgesR enfEdges
    rw [ih]
    rfl

theorem enforceR_id (σ : Ord') (trig : Option (Str × Str)) : enforceR id σ trig = enforce σ trig := by
  have h1 : ∀ es c, enfCompR id σ es c = enfComp σ es c := by
    intro es c
    funext w
    unfold enfCompR enfComp
    simp only [enfEdgesR_id]
    rfl
  have h2 : ∀ es cs, enfCompsR id σ es trig cs = enfComps σ es trig cs := by
    intro es cs
    induction cs with
    | nil => rfl
    | cons c cs ih =>
      funext w
      unfold enfCompsR enfComps
      rw [h1, ih]
  funext w
  unfold enforceR enforce
  simp only [h2]
  rfl

/-- Whatever happens, the search terminates normally and changes only levels of `X`. -/
theorem enfEdgesR_frame' {nb : Str → List Str} {vis : List Str} {out : List (Str × Str)} (rnd : ℚ → ℚ) (hg : Graph.Grow nb vis out)
    (X : Str → Prop) : ∀ (w : World), WF w → (∀ n m, X n → m ∈ nb n → ∃ t f, SetEdge w n m t f) →
    (∀ n m, X n → m ∈ nb n → X m) → (∀ n ∈ vis, X n) →
    ∃ w', enfEdgesR rnd out w = (w', .ok ()) ∧ EFrame w w' ∧ (∀ i, ¬InX w X i → w'.lv i = w.lv i) := by
  induction hg with
  | nil vis => intro w hw _ _ _; exact ⟨w, rfl, .refl w, fun _ _ => rfl⟩
  | @cons vis p c out h1 h2 h3 h4 ih =>
    intro w hw hnb hX hvis
    obtain ⟨t, f, he⟩ := hnb p c (hvis p h1) h3
    have hstep := enfEdgeR_eq rnd he
    have hfr := enfStepR_eframe rnd w (w.tr t).lower (w.tr t).upper f
    obtain ⟨w', e1, e2, e3⟩ := ih (enfStepR rnd w (w.tr t).lower (w.tr t).upper f) (hw.frame hfr.frame)
      (fun n m hn hm => by
        obtain ⟨t', f', h'⟩ := hnb n m hn hm
        exact ⟨t', f', (hfr.setEdge ..).2 h'⟩) hX
      (by
        intro n hn
        rcases List.mem_cons.1 hn with rfl | hn
        · exact hX p n (hvis p h1) h3
        · exact hvis n hn)
    refine ⟨w', ?_, EFrame.trans _ _ _ hfr e2, ?_⟩
    · unfold enfEdgesR
      rw [PyM.bind_ok hstep]
      exact e1
    · intro i hi
      have hi' : ¬InX (enfStepR rnd w (w.tr t).lower (w.tr t).upper f) X i := by
        rintro ⟨n, hn, hl⟩
        exact hi ⟨n, hn, by rw [hfr.g] at hl; exact hl⟩
      rw [e3 i hi']
      obtain ⟨a, b, ha, hb, hab⟩ := he.levels hw
      have hxp := hvis p h1
      have hxc := hX p c hxp h3
      apply lv_enfStepR_ne
      · rintro rfl
        rcases hab with ⟨rfl, rfl⟩ | ⟨rfl, rfl⟩
        · exact hi ⟨p, hxp, ha⟩
        · exact hi ⟨c, hxc, hb⟩
      · rintro rfl
        rcases hab with ⟨rfl, rfl⟩ | ⟨rfl, rfl⟩
        · exact hi ⟨c, hxc, hb⟩
        · exact hi ⟨p, hxp, ha⟩

/-- What one component's enforcement runs. -/
theorem enfCompR_search (rnd : ℚ → ℚ) {w : World} (hw : WF w) {es : List (Str × Str)} (hes : EsOk w es) {σ : Ord'} (hσ : Shuffles σ)
    {c : List Str} (hc : IsComp w c) :
    ∃ s is out, s ∈ c ∧ w.g.lev s = some is ∧ (∀ i, InX w (· ∈ c) i → w.eHz is ≤ w.eHz i) ∧
      Graph.Grow (subNbrs w.g es) [s] out ∧ (∀ n ∈ c, n = s ∨ n ∈ out.map Prod.snd) ∧
      enfCompR rnd σ es c w = enfEdgesR rnd out w := by
  obtain ⟨s, is, out, h1, h2, h3, h4, h5, h6, rfl⟩ := comp_search hw hes hσ hc
  refine ⟨s, is, _, h1, h2, h3, h4, h5, ?_⟩
  unfold enfCompR
  rw [h6]

/-- One component: normal return, nothing outside changes. -/
theorem enfCompR_frame' (rnd : ℚ → ℚ) {w : World} (hw : WF w) {es : List (Str × Str)} (hes : EsOk w es) {σ : Ord'} (hσ : Shuffles σ)
    {c : List Str} (hc : IsComp w c) :
    ∃ w', enfCompR rnd σ es c w = (w', .ok ()) ∧ EFrame w w' ∧ (∀ i, ¬InX w (· ∈ c) i → w'.lv i = w.lv i) := by
  obtain ⟨s, is, out, h1, h2, h3, h4, h5, h6⟩ := enfCompR_search rnd hw hes hσ hc
  rw [h6]
  refine enfEdgesR_frame' rnd h4 (· ∈ c) w hw ?_ ?_ ?_
  · intro n m _ hm; exact (mem_subNbrs hw hes n m).1 hm
  · intro n m hn hm
    obtain ⟨t, f, h⟩ := (mem_subNbrs hw hes n m).1 hm
    exact hc.closed hn h
  · intro n hn; simp at hn; rw [hn]; exact h1

/-- The induction over the components. -/
theorem enfCompsR_spec (rnd : ℚ → ℚ) {σ : Ord'} (hσ : Shuffles σ) {es : List (Str × Str)} (trig : Option (Str × Str))
    (P : World → List Str → Prop) (Q : World → World → List Str → Prop) (quiet : Prop)
    (hP : ∀ w1 w2 c, EFrame w1 w2 → AgreeOn w1 w2 c → P w1 c → P w2 c)
    (hQ1 : ∀ w1 w2 w3 c, EFrame w1 w2 → AgreeOn w1 w2 c → Q w2 w3 c → Q w1 w3 c)
    (hQ2 : ∀ w1 w2 w3 c, EFrame w1 w2 → EFrame w2 w3 → AgreeOn w2 w3 c → Q w1 w2 c → Q w1 w3 c)
    (hstep : ∀ w c, WF w → EsOk w es → IsComp w c → P w c →
      ∃ w', enfCompR rnd σ es c w = (w', .ok ()) ∧ Q w w' c ∧ (quiet → w'.warned = w.warned)) :
    ∀ (cs : List (List Str)) (w : World), WF w → EsOk w es → (∀ c ∈ cs, IsComp w c) →
      cs.Pairwise (fun c d => ∀ x ∈ c, x ∉ d) → (∀ c ∈ cs, triggered w.g es c trig = true → P w c) →
      ∃ w', enfCompsR rnd σ es trig cs w = (w', .ok ()) ∧ EFrame w w' ∧
        (∀ i, (¬∃ c ∈ cs, triggered w.g es c trig = true ∧ InX w (· ∈ c) i) → w'.lv i = w.lv i) ∧
        (∀ c ∈ cs, triggered w.g es c trig = true → Q w w' c) ∧ (quiet → w'.warned = w.warned) := by
  intro cs
  induction cs with
  | nil => intro w _ _ _ _ _; exact ⟨w, rfl, .refl w, fun _ _ => rfl, by simp, fun _ => rfl⟩
  | cons c cs ih =>
    intro w hw hes hcomp hpw hPc
    rw [List.pairwise_cons] at hpw
    by_cases ht : triggered w.g es c trig = true
    · have hcc := hcomp c (by simp)
      obtain ⟨w1, h1, h2, h3⟩ := hstep w c hw hes hcc (hPc c (by simp) ht)
      obtain ⟨w1', h1', h4, h5⟩ := enfCompR_frame' rnd hw hes hσ hcc
      rw [h1] at h1'
      simp only [Prod.mk.injEq, and_true] at h1'
      subst h1'
      -- the other components are untouched
      have hother : ∀ d, (∀ x ∈ c, x ∉ d) → AgreeOn w w1 d := by
        intro d hd i ⟨n, hn, hi⟩
        apply h5
        rintro ⟨m, hm, hmi⟩
        have : n = m := lev_inj hw hi hmi
        subst this
        exact hd n hm hn
      obtain ⟨w2, k1, k2, k3, k4, k5⟩ := ih w1 (hw.frame h4.frame) (h4.esOk hes)
        (fun d hd => (h4.isComp d).2 (hcomp d (by simp [hd]))) hpw.2
        (fun d hd htd => by
          rw [h4.g] at htd
          exact hP w w1 d h4 (hother d (hpw.1 d hd)) (hPc d (by simp [hd]) htd))
      have hcw2 : AgreeOn w1 w2 c := by
        intro i ⟨n, hn, hi⟩
        apply k3
        rintro ⟨d, hd, _, m, hm, hmi⟩
        have : n = m := lev_inj (hw.frame h4.frame) hi hmi
        subst this
        exact hpw.1 d hd n hn hm
      refine ⟨w2, ?_, EFrame.trans _ _ _ h4 k2, ?_, ?_, ?_⟩
      · unfold enfCompsR
        rw [if_pos ht, PyM.bind_ok h1]
        exact k1
      · intro i hi
        rw [k3 i, h5 i]
        · intro hx; exact hi ⟨c, by simp, ht, hx⟩
        · rintro ⟨d, hd, htd, hx⟩
          rw [h4.g] at htd
          exact hi ⟨d, by simp [hd], htd, (h4.inX ..).1 hx⟩
      · intro d hd htd
        rcases List.mem_cons.1 hd with rfl | hd
        · exact hQ2 w w1 w2 d h4 k2 hcw2 h2
        · exact hQ1 w w1 w2 d h4 (hother d (hpw.1 d hd)) (k4 d hd (by rw [h4.g]; exact htd))
      · intro hq; rw [k5 hq, h3 hq]
    · obtain ⟨w2, k1, k2, k3, k4, k5⟩ := ih w hw hes (fun d hd => hcomp d (by simp [hd])) hpw.2
        (fun d hd => hPc d (by simp [hd]))
      refine ⟨w2, ?_, k2, ?_, ?_, k5⟩
      · unfold enfCompsR
        rw [if_neg ht]
        exact k1
      · intro i hi
        apply k3
        rintro ⟨d, hd, h⟩
        exact hi ⟨d, by simp [hd], h⟩
      · intro d hd htd
        rcases List.mem_cons.1 hd with rfl | hd
        · exact absurd htd ht
        · exact k4 d hd htd

/-- A set transition is reproduced up to one rounding. -/
def Rounded (rnd : ℚ → ℚ) (w : World) (t : Nat) (f : ℚ) : Prop :=
  w.eHz (w.tr t).upper = rnd (w.eHz (w.tr t).lower + f) ∨ w.eHz (w.tr t).lower = rnd (w.eHz (w.tr t).upper - f)

/-- The search from pinned levels into levels that are not pinned: every edge found is reproduced up to one rounding. -/
theorem enfEdgesR_fresh {nb : Str → List Str} {vis : List Str} {out : List (Str × Str)} (rnd : ℚ → ℚ) (hg : Graph.Grow nb vis out)
    (X : Str → Prop) : ∀ (w : World), WF w → (∀ n m, X n → m ∈ nb n → ∃ t f, SetEdge w n m t f) →
    (∀ n m, X n → m ∈ nb n → X m) → (∀ n ∈ vis, X n) →
    (∀ n ∈ vis, ∀ i, w.g.lev n = some i → (w.lv i).fixed = true) →
    (∀ n i, X n → n ∉ vis → w.g.lev n = some i → (w.lv i).fixed = false) →
    ∃ w', enfEdgesR rnd out w = (w', .ok ()) ∧ EFrame w w' ∧ w'.warned = w.warned ∧
      (∀ n ∈ vis, ∀ i, w.g.lev n = some i → w'.lv i = w.lv i) ∧
      (∀ e ∈ out, ∀ t f, SetEdge w e.1 e.2 t f → Rounded rnd w' t f) ∧
      (∀ e ∈ out, ∀ i, w.g.lev e.2 = some i → (w'.lv i).fixed = true) := by
  induction hg with
  | nil vis => intro w _ _ _ _ _ _; exact ⟨w, rfl, .refl w, rfl, fun _ _ _ _ => rfl, by simp, by simp⟩
  | @cons vis p c out h1 h2 h3 h4 ih =>
    intro w hw hnb hX hvis hfix hun
    obtain ⟨t, f, he⟩ := hnb p c (hvis p h1) h3
    have hstep := enfEdgeR_eq rnd he
    obtain ⟨a, b, ha, hb, hab⟩ := he.levels hw
    have hfa := hfix p h1 a ha
    have hfb := hun c b (hX p c (hvis p h1) h3) h2 hb
    have hpc : p ≠ c := fun e => h2 (e ▸ h1)
    have hne : a ≠ b := fun e => hpc (lev_inj hw ha (e ▸ hb))
    set w1 := enfStepR rnd w (w.tr t).lower (w.tr t).upper f with hw1
    have hfr : EFrame w w1 := enfStepR_eframe rnd w _ _ f
    -- what the step does
    have hnw : ¬((w.lv (w.tr t).lower).fixed = true ∧ (w.lv (w.tr t).upper).fixed = true ∧
        f ≠ |rnd (w.eHz (w.tr t).lower - w.eHz (w.tr t).upper)|) := by
      rcases hab with ⟨rfl, rfl⟩ | ⟨rfl, rfl⟩
      · rw [hfb]; simp
      · rw [hfb]; simp
    have hka : w1.lv a = w.lv a := by
      obtain ⟨E, bb, hE⟩ := hfr.lv a
      have e1 : w1.eHz a = w.eHz a := by
        rw [hw1, eHz_enfStepR, if_neg hnw]
        rcases hab with ⟨rfl, rfl⟩ | ⟨rfl, rfl⟩
        · rw [hfb, if_neg (by simp), if_neg hne]
        · rw [hfa, if_pos rfl, if_neg hne]
      have e2 : (w1.lv a).fixed = (w.lv a).fixed := by
        rw [hw1, fixed_enfStepR, if_pos (by rcases hab with ⟨rfl, rfl⟩ | ⟨rfl, rfl⟩ <;> simp), hfa]
      rw [hE] at e2 ⊢
      unfold eHz at e1
      rw [hE] at e1
      simp only at e1 e2
      rw [e1, e2]
    have hfb1 : (w1.lv b).fixed = true := by
      rw [hw1, fixed_enfStepR, if_pos (by rcases hab with ⟨rfl, rfl⟩ | ⟨rfl, rfl⟩ <;> simp)]
    have hother : ∀ i, i ≠ a → i ≠ b → w1.lv i = w.lv i := by
      intro i q1 q2
      rw [hw1]
      apply lv_enfStepR_ne <;> rcases hab with ⟨rfl, rfl⟩ | ⟨rfl, rfl⟩ <;> assumption
    have hR : Rounded rnd w1 t f := by
      unfold Rounded
      rw [hfr.tr]
      rcases hab with ⟨rfl, rfl⟩ | ⟨rfl, rfl⟩
      · left
        rw [hw1, eHz_enfStepR, eHz_enfStepR, if_neg hnw, if_neg hnw, hfb]
        simp [hne]
      · right
        rw [hw1, eHz_enfStepR, eHz_enfStepR, if_neg hnw, if_neg hnw, hfa]
        simp [hne]
    have hwarn : w1.warned = w.warned := by rw [hw1, warned_enfStepR, if_neg hnw]
    obtain ⟨w', e1, e2, e3, e4, e5, e6⟩ := ih w1 (hw.frame hfr.frame)
      (fun n m hn hm => by
        obtain ⟨t', f', h'⟩ := hnb n m hn hm
        exact ⟨t', f', (hfr.setEdge ..).2 h'⟩) hX
      (by
        intro n hn
        rcases List.mem_cons.1 hn with rfl | hn
        · exact hX p n (hvis p h1) h3
        · exact hvis n hn)
      (by
        intro n hn i hi
        rw [hfr.g] at hi
        rcases List.mem_cons.1 hn with rfl | hn
        · rw [hb] at hi; cases hi; exact hfb1
        · by_cases hia : i = a
          · rw [hia, hka]; exact hfa
          · by_cases hib : i = b
            · rw [hib]; exact hfb1
            · rw [hother i hia hib]; exact hfix n hn i hi)
      (by
        intro n i hn hnv hi
        rw [hfr.g] at hi
        simp only [List.mem_cons, not_or] at hnv
        rw [hother i]
        · exact hun n i hn hnv.2 hi
        · rintro rfl; exact hnv.2 (lev_inj hw hi ha ▸ h1)
        · rintro rfl; exact hnv.1 (lev_inj hw hi hb))
    refine ⟨w', ?_, EFrame.trans _ _ _ hfr e2, e3.trans hwarn, ?_, ?_, ?_⟩
    · unfold enfEdgesR
      rw [PyM.bind_ok hstep]
      exact e1
    · intro n hn i hi
      rw [e4 n (by simp [hn]) i (by rw [hfr.g]; exact hi)]
      by_cases hia : i = a
      · rw [hia, hka]
      · refine hother i hia ?_
        rintro rfl
        exact h2 (lev_inj hw hi hb ▸ hn)
    · intro e hm t' f' he'
      rcases List.mem_cons.1 hm with rfl | hm
      · simp only at he'
        have ht : t' = t := by
          have := he'.1
          rw [he.1] at this
          simpa using this.symm
        subst ht
        have hf : f' = f := by
          have := he'.2
          rw [he.2] at this
          simpa using this.symm
        subst hf
        have ka : w'.lv a = w1.lv a := e4 p (by simp [h1]) a (by rw [hfr.g]; exact ha)
        have kb : w'.lv b = w1.lv b := e4 c (by simp) b (by rw [hfr.g]; exact hb)
        unfold Rounded at hR ⊢
        rw [hfr.tr] at hR
        rw [e2.tr, hfr.tr]
        unfold eHz at hR ⊢
        rcases hab with ⟨q1, q2⟩ | ⟨q1, q2⟩ <;> rw [← q1, ← q2] at hR ⊢ <;> rw [ka, kb] <;> exact hR
      · exact e5 e hm t' f' ((hfr.setEdge ..).2 he')
    · intro e hm i hi
      rcases List.mem_cons.1 hm with rfl | hm
      · simp only at hi
        rw [hb] at hi
        cases hi
        rw [e4 c (by simp) b (by rw [hfr.g]; exact hb)]
        exact hfb1
      · exact e6 e hm i (by rw [hfr.g]; exact hi)

/-! ## All transitions of a loop-free group -/

theorem grow_reach {nb : Str → List Str} {H : SimpleGraph Str} {s : Str} {vis : List Str} {out : List (Str × Str)}
    (hg : Graph.Grow nb vis out) : (∀ e ∈ out, H.Adj e.1 e.2) → (∀ v ∈ vis, H.Reachable s v) → ∀ x ∈ out.map Prod.snd, H.Reachable s x := by
  induction hg with
  | nil => simp
  | @cons vis p c out h1 h2 h3 h4 ih =>
    intro ha hv x hx
    have hc : H.Reachable s c := (hv p h1).trans (ha (p, c) (by simp)).reachable
    rw [List.map_cons, List.mem_cons] at hx
    rcases hx with rfl | hx
    · exact hc
    · refine ih (fun e he => ha e (by simp [he])) (fun v hv' => ?_) x hx
      rcases List.mem_cons.1 hv' with rfl | hv'
      · exact hc
      · exact hv v hv'

/-- In a loop-free graph a search that reaches every node finds every edge. -/
theorem grow_edges {nb : Str → List Str} {G : SimpleGraph Str} (hG : G.IsAcyclic) {s : Str} {out : List (Str × Str)}
    (hg : Graph.Grow nb [s] out) (ha : ∀ e ∈ out, G.Adj e.1 e.2) {n m : Str} (hnm : G.Adj n m)
    (hn : n = s ∨ n ∈ out.map Prod.snd) (hm : m = s ∨ m ∈ out.map Prod.snd) : (n, m) ∈ out ∨ (m, n) ∈ out := by
  by_contra hcon
  rw [not_or] at hcon
  have hb := (SimpleGraph.isAcyclic_iff_forall_adj_isBridge.1 hG) hnm
  rw [SimpleGraph.isBridge_iff] at hb
  have hr : ∀ x, x = s ∨ x ∈ out.map Prod.snd → (G.deleteEdges {s(n, m)}).Reachable s x := by
    rintro x (rfl | hx)
    · exact .rfl
    · refine grow_reach hg (fun e he => ?_) (fun v hv => by rw [List.mem_singleton.1 hv]) x hx
      rw [SimpleGraph.deleteEdges_adj]
      refine ⟨ha e he, ?_⟩
      intro h1
      rw [Set.mem_singleton_iff, Sym2.eq_iff] at h1
      obtain ⟨a, b⟩ := e
      rcases h1 with ⟨rfl, rfl⟩ | ⟨rfl, rfl⟩
      · exact hcon.1 he
      · exact hcon.2 he
  exact hb ((hr n hn).symm.trans (hr m hm))

/-- Nothing in the group is pinned. -/
def Unpinned (w : World) (X : Str → Prop) : Prop := ∀ i, InX w X i → (w.lv i).fixed = false

/-- The outcome with rounding. -/
def DoneR (rnd : ℚ → ℚ) (w w' : World) (X : Str → Prop) : Prop :=
  ∀ n m t f, X n → SetEdge w n m t f → Rounded rnd w' t f ∧ (w'.lv (w.tr t).lower).fixed = true ∧ (w'.lv (w.tr t).upper).fixed = true

theorem enfCompR_fresh (rnd : ℚ → ℚ) {w : World} (hw : WF w) {es : List (Str × Str)} (hes : EsOk w es) {σ : Ord'} (hσ : Shuffles σ)
    {c : List Str} (hc : IsComp w c) (hu : Unpinned w (· ∈ c)) :
    ∃ w', enfCompR rnd σ es c w = (w', .ok ()) ∧ (LoopFree w (· ∈ c) → DoneR rnd w w' (· ∈ c)) ∧ w'.warned = w.warned := by
  obtain ⟨s, is, out, h1, h2, h3, h4, h5, h6⟩ := enfCompR_search rnd hw hes hσ hc
  rw [h6]
  have hnb : ∀ n m, n ∈ c → m ∈ subNbrs w.g es n → ∃ t f, SetEdge w n m t f := fun n m _ hm => (mem_subNbrs hw hes n m).1 hm
  have hcl : ∀ n m, n ∈ c → m ∈ subNbrs w.g es n → m ∈ c := by
    intro n m hn hm
    obtain ⟨t, f, h⟩ := (mem_subNbrs hw hes n m).1 hm
    exact hc.closed hn h
  -- every edge of the search
  suffices hmain : ∃ w', enfEdgesR rnd out w = (w', .ok ()) ∧ EFrame w w' ∧ w'.warned = w.warned ∧
      (∀ e ∈ out, ∀ t f, SetEdge w e.1 e.2 t f → Rounded rnd w' t f) ∧
      (∀ e ∈ out, ∀ i, (w.g.lev e.1 = some i ∨ w.g.lev e.2 = some i) → (w'.lv i).fixed = true) by
    obtain ⟨w', k1, k2, k3, k4, k5⟩ := hmain
    refine ⟨w', k1, fun hlf => ?_, k3⟩
    intro n m t f hn he
    have hm := hc.closed hn he
    have hnm : n ≠ m := by rintro rfl; exact hlf.2 n t f hn he
    have hadj : ∀ e ∈ out, (setGraph w hw (· ∈ c)).Adj e.1 e.2 := by
      have : ∀ {vis : List Str} {out : List (Str × Str)}, Graph.Grow (subNbrs w.g es) vis out → (∀ v ∈ vis, v ∈ c) →
          ∀ e ∈ out, (setGraph w hw (· ∈ c)).Adj e.1 e.2 := by
        intro vis out hg
        induction hg with
        | nil => simp
        | @cons vis p x out q1 q2 q3 q4 ih =>
          intro hv e hm
          have hx := hcl p x (hv p q1) q3
          rcases List.mem_cons.1 hm with rfl | hm
          · exact ⟨fun e => q2 ((show p = x from e) ▸ q1), hv p q1, hx, hnb p x (hv p q1) q3⟩
          · refine ih (fun v hv' => ?_) e hm
            rcases List.mem_cons.1 hv' with rfl | hv'
            · exact hx
            · exact hv v hv'
      exact this h4 (by simpa using h1)
    obtain ⟨i, j, hi, hj, hij⟩ := he.levels hw
    have hfx : Rounded rnd w' t f ∧ (w'.lv i).fixed = true ∧ (w'.lv j).fixed = true := by
      rcases grow_edges (hlf.acyclic hw) h4 hadj ⟨hnm, hn, hm, t, f, he⟩ (h5 n hn) (h5 m hm) with ho | ho
      · exact ⟨k4 _ ho t f he, k5 _ ho i (.inl hi), k5 _ ho j (.inr hj)⟩
      · exact ⟨k4 _ ho t f (he.symm hw), k5 _ ho i (.inr hi), k5 _ ho j (.inl hj)⟩
    refine ⟨hfx.1, ?_⟩
    rcases hij with ⟨rfl, rfl⟩ | ⟨rfl, rfl⟩
    · exact hfx.2
    · exact hfx.2.symm
  cases h4 with
  | nil => exact ⟨w, rfl, .refl w, rfl, by simp, by simp⟩
  | @cons _ p x rest q1 q2 q3 q4 =>
    rw [List.mem_singleton] at q1
    subst q1
    obtain ⟨t, f, he⟩ := hnb p x h1 q3
    have hxc := hcl p x h1 q3
    obtain ⟨a, b, ha, hb, hab⟩ := he.levels hw
    have hpx : p ≠ x := fun e => q2 (e ▸ (by simp))
    have hne : a ≠ b := fun e => hpx (lev_inj hw ha (e ▸ hb))
    have hfa := hu a ⟨p, h1, ha⟩
    have hfb := hu b ⟨x, hxc, hb⟩
    have hlu : (w.lv (w.tr t).lower).fixed = false ∧ (w.lv (w.tr t).upper).fixed = false ∧ (w.tr t).lower ≠ (w.tr t).upper := by
      rcases hab with ⟨e1, e2⟩ | ⟨e1, e2⟩ <;> rw [← e1, ← e2]
      · exact ⟨hfa, hfb, hne⟩
      · exact ⟨hfb, hfa, hne.symm⟩
    have hnw : ¬((w.lv (w.tr t).lower).fixed = true ∧ (w.lv (w.tr t).upper).fixed = true ∧
        f ≠ |rnd (w.eHz (w.tr t).lower - w.eHz (w.tr t).upper)|) := by rw [hlu.1]; simp
    set w1 := enfStepR rnd w (w.tr t).lower (w.tr t).upper f with hw1
    have hfr : EFrame w w1 := enfStepR_eframe rnd w _ _ f
    have hpin : ∀ i, i = a ∨ i = b → (w1.lv i).fixed = true := by
      intro i hi
      rw [hw1, fixed_enfStepR, if_pos]
      rcases hab with ⟨e1, e2⟩ | ⟨e1, e2⟩ <;> rw [← e1, ← e2] <;> tauto
    have hother : ∀ i, i ≠ a → i ≠ b → w1.lv i = w.lv i := by
      intro i q1 q2
      rw [hw1]
      apply lv_enfStepR_ne <;> rcases hab with ⟨rfl, rfl⟩ | ⟨rfl, rfl⟩ <;> assumption
    have hR : Rounded rnd w1 t f := by
      unfold Rounded
      rw [hfr.tr]
      left
      rw [hw1, eHz_enfStepR, eHz_enfStepR, if_neg hnw, if_neg hnw, hlu.2.1]
      simp [hlu.2.2]
    obtain ⟨w', e1, e2, e3, e4, e5, e6⟩ := enfEdgesR_fresh rnd q4 (· ∈ c) w1 (hw.frame hfr.frame)
      (fun n m hn hm => by
        obtain ⟨t', f', h'⟩ := hnb n m hn hm
        exact ⟨t', f', (hfr.setEdge ..).2 h'⟩) hcl
      (by
        intro n hn
        simp only [List.mem_cons, List.not_mem_nil, or_false] at hn
        rcases hn with rfl | rfl
        · exact hxc
        · exact h1)
      (by
        intro n hn i hi
        rw [hfr.g] at hi
        simp only [List.mem_cons, List.not_mem_nil, or_false] at hn
        rcases hn with rfl | rfl
        · rw [hb] at hi; cases hi; exact hpin _ (.inr rfl)
        · rw [ha] at hi; cases hi; exact hpin _ (.inl rfl))
      (by
        intro n i hn hnv hi
        rw [hfr.g] at hi
        simp only [List.mem_cons, List.not_mem_nil, or_false, not_or] at hnv
        rw [hother i]
        · exact hu i ⟨n, hn, hi⟩
        · rintro rfl; exact hnv.2 (lev_inj hw hi ha)
        · rintro rfl; exact hnv.1 (lev_inj hw hi hb))
    have ka : w'.lv a = w1.lv a := e4 p (by simp) a (by rw [hfr.g]; exact ha)
    have kb : w'.lv b = w1.lv b := e4 x (by simp) b (by rw [hfr.g]; exact hb)
    refine ⟨w', ?_, EFrame.trans _ _ _ hfr e2, ?_, ?_, ?_⟩
    · unfold enfEdgesR
      rw [PyM.bind_ok (enfEdgeR_eq rnd he)]
      exact e1
    · rw [e3, hw1, warned_enfStepR, if_neg hnw]
    · intro e hm t' f' he'
      rcases List.mem_cons.1 hm with rfl | hm
      · simp only at he'
        have ht : t' = t := by
          have := he'.1
          rw [he.1] at this
          simpa using this.symm
        subst ht
        have hf : f' = f := by
          have := he'.2
          rw [he.2] at this
          simpa using this.symm
        subst hf
        unfold Rounded at hR ⊢
        rw [hfr.tr] at hR
        rw [e2.tr, hfr.tr]
        unfold eHz at hR ⊢
        rcases hab with ⟨q1, q2⟩ | ⟨q1, q2⟩ <;> rw [← q1, ← q2] at hR ⊢ <;> rw [ka, kb] <;> exact hR
      · exact e5 e hm t' f' ((hfr.setEdge ..).2 he')
    · -- the ends of every edge
      have hall : ∀ {vis : List Str} {out : List (Str × Str)}, Graph.Grow (subNbrs w.g es) vis out →
          ∀ e ∈ out, e.1 ∈ vis ∨ e.1 ∈ out.map Prod.snd := by
        intro vis out hg
        induction hg with
        | nil => simp
        | @cons vis p x out q1 q2 q3 q4 ih =>
          intro e hm
          rcases List.mem_cons.1 hm with rfl | hm
          · exact .inl q1
          · rcases ih e hm with h | h
            · rcases List.mem_cons.1 h with h | h
              · right; simp [h]
              · exact .inl h
            · right; simp only [List.map_cons, List.mem_cons]; exact .inr h
      have htgt : ∀ y ∈ rest.map Prod.snd, ∀ i, w.g.lev y = some i → (w'.lv i).fixed = true := by
        intro y hy i hi
        obtain ⟨e, he, rfl⟩ := List.mem_map.1 hy
        exact e6 e he i (by rw [hfr.g]; exact hi)
      have hroot : ∀ y, y = x ∨ y = p → ∀ i, w.g.lev y = some i → (w'.lv i).fixed = true := by
        rintro y (rfl | rfl) i hi
        · rw [hb] at hi; cases hi; rw [kb]; exact hpin _ (.inr rfl)
        · rw [ha] at hi; cases hi; rw [ka]; exact hpin _ (.inl rfl)
      intro e hm i hi
      rcases List.mem_cons.1 hm with rfl | hm
      · rcases hi with hi | hi
        · exact hroot _ (.inr rfl) i hi
        · exact hroot _ (.inl rfl) i hi
      · rcases hi with hi | hi
        · rcases hall q4 e hm with h | h
          · simp only [List.mem_cons, List.not_mem_nil, or_false] at h
            exact hroot _ h i hi
          · exact htgt _ h i hi
        · exact htgt _ (List.mem_map_of_mem hm) i hi

/-- Everything about one rounded enforcement of a loop-free group with nothing pinned. -/
theorem enforceR_group (rnd : ℚ → ℚ) {w : World} (hw : WF w) {σ : Ord'} (hσ : Shuffles σ) (trig : Option (Str × Str)) (v : Str) :
    ∃ w', enforceR rnd σ trig w = (w', .ok ()) ∧ EFrame w w' ∧
      (∀ p, trig = some p → ∀ i, ¬InX w (SetConn w p.1) i → w'.lv i = w.lv i) ∧
      ((∀ p, trig = some p → SetConn w v p.1 ∧ ∃ t f, SetEdge w p.1 p.2 t f) → (∃ m t f, SetEdge w v m t f) →
        Unpinned w (SetConn w v) → LoopFree w (SetConn w v) → DoneR rnd w w' (SetConn w v)) := by
  obtain ⟨es, hse, hes, cs, hcs, hcomp, hpw, hcov⟩ := set_comps hw hσ
  have heq : enforceR rnd σ trig w = enfCompsR rnd σ es trig cs w := by
    unfold enforceR
    rw [hse, hcs]
  rw [heq]
  have hun : ∀ w1 w2 c, EFrame w1 w2 → AgreeOn w1 w2 c → (Unpinned w1 (· ∈ c) ↔ Unpinned w2 (· ∈ c)) := by
    intro w1 w2 c hf ha
    constructor
    · intro h i hi
      rw [hf.inX] at hi
      rw [ha i hi]
      exact h i hi
    · intro h i hi
      have := h i ((hf.inX ..).2 hi)
      rw [ha i hi] at this
      exact this
  have hlf : ∀ w1 w2 (X : Str → Prop), EFrame w1 w2 → LoopFree w1 X → LoopFree w2 X := by
    intro w1 w2 X hf h
    unfold LoopFree at h ⊢
    simp only [hf.setEdge]
    exact h
  obtain ⟨w', h1, h2, h3, h4, _⟩ := enfCompsR_spec rnd hσ (es := es) trig
    (fun w c => WF w ∧ IsComp w c)
    (fun w w' c => WF w ∧ IsComp w c ∧ (Unpinned w (· ∈ c) → LoopFree w (· ∈ c) → DoneR rnd w w' (· ∈ c))) False
    (by
      rintro w1 w2 c hf ha ⟨h1, h2⟩
      exact ⟨h1.frame hf.frame, (hf.isComp c).2 h2⟩)
    (by
      rintro w1 w2 w3 c hf ha ⟨h1, h2, h3⟩
      have hb : EFrame w2 w1 := by
        refine ⟨hf.g.symm, hf.tr.symm, hf.ntr.symm, hf.nlv.symm, hf.I.symm, hf.B.symm, hf.hf.symm, hf.zl.symm,
          hf.lalias.symm, hf.talias.symm, ?_⟩
        intro i
        obtain ⟨E, b, h⟩ := hf.lv i
        exact ⟨(w1.lv i).levelHz, (w1.lv i).fixed, by rw [h]⟩
      refine ⟨h1.frame hb.frame, (hf.isComp c).1 h2, fun q1 q2 n m t f hn he => ?_⟩
      have := h3 ((hun _ _ _ hf ha).1 q1) (hlf _ _ _ hf q2) n m t f hn ((hf.setEdge ..).2 he)
      rw [hf.tr] at this
      exact this)
    (by
      rintro w1 w2 w3 c hf hf' ha ⟨h1, h2, h3⟩
      refine ⟨h1, h2, fun q1 q2 n m t f hn he => ?_⟩
      obtain ⟨r1, r2, r3⟩ := h3 q1 q2 n m t f hn he
      obtain ⟨x1, x2⟩ := he.inX h1 (X := (· ∈ c)) hn (h2.closed hn he)
      have y1 := ha _ ((hf.inX ..).2 x1)
      have y2 := ha _ ((hf.inX ..).2 x2)
      refine ⟨?_, by rw [y1]; exact r2, by rw [y2]; exact r3⟩
      unfold Rounded at r1 ⊢
      rw [hf.tr] at r1
      rw [hf'.tr, hf.tr]
      unfold eHz at r1 ⊢
      rw [y1, y2]
      exact r1)
    (by
      rintro w c hw' hes' hc -
      by_cases hr : Unpinned w (· ∈ c)
      · obtain ⟨w', e1, e2, e3⟩ := enfCompR_fresh rnd hw' hes' hσ hc hr
        exact ⟨w', e1, ⟨hw', hc, fun _ => e2⟩, fun h => h.elim⟩
      · obtain ⟨w', e1, e2, e3⟩ := enfCompR_frame' rnd hw' hes' hσ hc
        exact ⟨w', e1, ⟨hw', hc, fun h1 => absurd h1 hr⟩, fun h => h.elim⟩)
    cs w hw hes hcomp hpw
    (fun c hc _ => ⟨hw, hcomp c hc⟩)
  refine ⟨w', h1, h2, ?_, ?_⟩
  · rintro p rfl i hi
    apply h3
    rintro ⟨c, hc, ht, hx⟩
    rw [triggered_some hw hes] at ht
    rw [(hcomp c hc).eq_conn hw ht.1] at hx
    exact hi hx
  · intro htr ⟨m, t, f, he⟩ hr hl
    obtain ⟨c, hc, hv⟩ := hcov v m t f he
    have htc : triggered w.g es c trig = true := by
      cases trig with
      | none => rfl
      | some p =>
        obtain ⟨q1, q2⟩ := htr p rfl
        rw [triggered_some hw hes]
        exact ⟨by
          have := congrFun ((hcomp c hc).eq_conn hw hv) p.1
          exact this.symm ▸ q1, q2⟩
    have he' := (hcomp c hc).eq_conn hw hv
    have hQ := (h4 c hc htc).2.2 (by rw [he']; exact hr) (by rw [he']; exact hl)
    rw [he'] at hQ
    exact hQ

/-- If every triggered group has nothing pinned, there is no warning. -/
theorem enforceR_silent (rnd : ℚ → ℚ) {w : World} (hw : WF w) {σ : Ord'} (hσ : Shuffles σ) (trig : Option (Str × Str))
    (hq : ∀ n i, w.g.lev n = some i → (w.lv i).fixed = false) : ∃ w', enforceR rnd σ trig w = (w', .ok ()) ∧ w'.warned = w.warned := by
  obtain ⟨es, hse, hes, cs, hcs, hcomp, hpw, hcov⟩ := set_comps hw hσ
  have heq : enforceR rnd σ trig w = enfCompsR rnd σ es trig cs w := by
    unfold enforceR
    rw [hse, hcs]
  rw [heq]
  obtain ⟨w', h1, h2, h3, h4, h5⟩ := enfCompsR_spec rnd hσ (es := es) trig
    (fun w c => Unpinned w (· ∈ c)) (fun _ _ _ => True) True
    (by
      intro w1 w2 c hf ha h i hi
      rw [hf.inX] at hi
      rw [ha i hi]
      exact h i hi)
    (fun _ _ _ _ _ _ _ => trivial) (fun _ _ _ _ _ _ _ _ => trivial)
    (by
      intro w c hw' hes' hc hr
      obtain ⟨w', e1, e2, e3⟩ := enfCompR_fresh rnd hw' hes' hσ hc hr
      exact ⟨w', e1, trivial, fun _ => e3⟩)
    cs w hw hes hcomp hpw (fun c hc _ i hi => by obtain ⟨n, -, hn⟩ := hi; exact hq n i hn)
  exact ⟨w', h1, h5 trivial⟩

end World
end AtomTk
