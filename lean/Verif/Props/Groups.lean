import Verif.Props.Commute
import Verif.Model.Trigger
import Verif.Props.Items

/-!
# C163, C164: `enforce_consistency` on one group

C163: enforcing everything is enforcing each group once, in any order.  C164: what the argument may be.
-/

namespace AtomTk
open Util World

/-! ## One group -/

/-- The steps of one group depend on the energies of its levels only. -/
theorem enfComp_acts {w : World} (hw : WF w) {es : List (Str × Str)} (hes : EsOk w es) {σ : Ord'} (hσ : Shuffles σ) {c : List Str} (hc : IsComp w c) :
    ∃ A : List (Nat × Nat × ℚ), (∀ a ∈ A, InX w (· ∈ c) a.1 ∧ InX w (· ∈ c) a.2.1) ∧
      ∀ v, EFrame w v → (∀ i, InX w (· ∈ c) i → v.eHz i = w.eHz i) → enfComp σ es c v = (enfFold A v, .ok ()) := by
  obtain ⟨s, is, out, h1, h2, h3, h4, h5, h6, h7⟩ := comp_search hw hes hσ hc
  have hin := h4.inside (· ∈ c) (fun n m hn hm => by
    obtain ⟨t, f, h⟩ := (mem_subNbrs hw hes n m).1 hm
    exact hc.closed hn h) (by intro n hn; simp only [List.mem_singleton] at hn; rw [hn]; exact h1)
  refine ⟨acts w out, ?_, ?_⟩
  · intro a ha
    unfold acts at ha
    rw [List.mem_filterMap] at ha
    obtain ⟨e, he, hea⟩ := ha
    obtain ⟨q1, q2, q3, _⟩ := hin e he
    obtain ⟨t', f', hs⟩ := (mem_subNbrs hw hes _ _).1 q3
    rw [hs.1] at hea
    simp only [Option.bind_some, hs.2, Option.map_some, Option.some.injEq] at hea
    subst hea
    exact hs.inX hw (X := (· ∈ c)) q1 q2
  · intro v hv hE
    have hl : lowestLoop v (withLevels w.g (σ (.low c) c)) none none = lowestLoop w (withLevels w.g (σ (.low c) c)) none none := by
      apply lowestLoop_congr
      rintro i (⟨n, hn⟩ | hn)
      · unfold withLevels at hn
        simp only [List.mem_map, Prod.mk.injEq] at hn
        obtain ⟨n', hn', rfl, hni⟩ := hn
        exact hE i ⟨n', (hσ (.low c) c).mem_iff.1 hn', hni⟩
      · simp at hn
    unfold enfComp
    rw [hv.g, hl, h6]
    simp only
    rw [← h7]
    exact enfEdges_acts _ (fun e he => (mem_subNbrs hw hes _ _).1 (hin e he).2.2.1) _ hv

/-- The groups one after the other. -/
def compsRun (σ : Ord') (es : List (Str × Str)) : List (List Str) → World → World
  | [], w => w
  | c :: cs, w => compsRun σ es cs (enfComp σ es c w).1

theorem enfComps_all {σ : Ord'} (hσ : Shuffles σ) {es : List (Str × Str)} (cs : List (List Str)) {w : World} (hw : WF w) (hes : EsOk w es)
    (hcomp : ∀ c ∈ cs, IsComp w c) : enfComps σ es none cs w = (compsRun σ es cs w, .ok ()) := by
  induction cs generalizing w with
  | nil => rfl
  | cons c cs ih =>
    obtain ⟨w1, h1, h2, _⟩ := enfComp_frame' hw hes hσ (hcomp c (by simp))
    unfold enfComps
    rw [if_pos (show triggered _ _ _ none = true from rfl), PyM.bind_ok h1, ih (hw.frame h2.frame) (h2.esOk hes) (fun d hd => (h2.isComp d).2 (hcomp d (by simp [hd])))]
    show _ = (compsRun σ es cs (enfComp σ es c w).1, _)
    rw [h1]

theorem compsRun_perm {σ : Ord'} (hσ : Shuffles σ) {es : List (Str × Str)} {cs cs' : List (List Str)} (hp : cs.Perm cs') {w : World} (hw : WF w)
    (hes : EsOk w es) (hcomp : ∀ c ∈ cs, IsComp w c) (hpw : cs.Pairwise (fun c d => ∀ x ∈ c, x ∉ d)) : compsRun σ es cs w = compsRun σ es cs' w := by
  induction hp generalizing w with
  | nil => rfl
  | @cons c cs cs' _ ih =>
    rw [List.pairwise_cons] at hpw
    obtain ⟨w1, h1, h2, _⟩ := enfComp_frame' hw hes hσ (hcomp c (by simp))
    show compsRun σ es cs (enfComp σ es c w).1 = compsRun σ es cs' (enfComp σ es c w).1
    rw [h1]
    exact ih (hw.frame h2.frame) (h2.esOk hes) (fun d hd => (h2.isComp d).2 (hcomp d (by simp [hd]))) hpw.2
  | swap c d cs =>
    rw [List.pairwise_cons] at hpw
    have hd := hpw.1 c (by simp)
    obtain ⟨A, a1, a2⟩ := enfComp_acts hw hes hσ (hcomp c (by simp))
    obtain ⟨D, d1, d2⟩ := enfComp_acts hw hes hσ (hcomp d (by simp))
    have hno : ∀ {i : Nat}, InX w (· ∈ d) i → InX w (· ∈ c) i → False := by
      rintro i ⟨n, hn, hi⟩ ⟨m, hm, hj⟩
      have := lev_inj hw hi hj
      subst this
      exact hd n hn hm
    have keepC : ∀ i, InX w (· ∈ c) i → (enfFold D w).eHz i = w.eHz i := by
      intro i hi
      unfold eHz
      rw [enfFold_lv D (P := InX w (· ∈ c)) (fun a ha => ⟨fun k => hno (d1 a ha).1 k, fun k => hno (d1 a ha).2 k⟩) hi]
    have keepD : ∀ i, InX w (· ∈ d) i → (enfFold A w).eHz i = w.eHz i := by
      intro i hi
      unfold eHz
      rw [enfFold_lv A (P := InX w (· ∈ d)) (fun a ha => ⟨fun k => hno k (a1 a ha).1, fun k => hno k (a1 a ha).2⟩) hi]
    show compsRun σ es cs (enfComp σ es c (enfComp σ es d w).1).1 = compsRun σ es cs (enfComp σ es d (enfComp σ es c w).1).1
    rw [d2 w (.refl w) (fun _ _ => rfl), a2 w (.refl w) (fun _ _ => rfl), a2 _ (enfFold_eframe D w) keepC, d2 _ (enfFold_eframe A w) keepD]
    show compsRun σ es cs (enfFold A (enfFold D w)) = compsRun σ es cs (enfFold D (enfFold A w))
    rw [enfFold_comm]
    intro a' ha' a ha
    constructor
    · rintro (k | k)
      · exact hno (k ▸ (d1 a' ha').1) (a1 a ha).1
      · exact hno (k ▸ (d1 a' ha').2) (a1 a ha).1
    · rintro (k | k)
      · exact hno (k ▸ (d1 a' ha').1) (a1 a ha).2
      · exact hno (k ▸ (d1 a' ha').2) (a1 a ha).2
  | trans h1 h2 ih1 ih2 =>
    rw [ih1 hw hes hcomp hpw]
    exact ih2 hw hes (fun c hc => hcomp c (h1.mem_iff.2 hc)) ((h1.pairwise_iff (fun {c d} (h : ∀ x ∈ c, x ∉ d) x hx hx' => h x hx' hx)).1 hpw)

/-- The call for a transition of a group is the step of that group. -/
theorem enforce_pair_comp {w : World} (hw : WF w) {σ : Ord'} (hσ : Shuffles σ) {es : List (Str × Str)} (k1 : w.setEdges = .ok es) (hes : EsOk w es)
    {c : List Str} (hc : c ∈ Graph.compsFrom (endpoints es) (fun n => subNbrs w.g es n) (σ .comps (endpoints es)) []) {p : Str × Str} {t : Nat} {f : ℚ}
    (he : SetEdge w p.1 p.2 t f) (hpc : p.1 ∈ c) : enforce σ (some p) w = enfComp σ es c w := by
  obtain ⟨es', k1', _, cs, hcs, hcomp, hpw, _⟩ := set_comps hw hσ
  rw [k1] at k1'
  cases k1'
  rw [← hcs] at hc
  have htr : triggered w.g es c (some p) = true := (triggered_some hw hes c p).2 ⟨hpc, t, f, he⟩
  have hoff : ∀ e : List Str, p.1 ∉ e → ∀ g, g = w.g → triggered g es e (some p) = false := by
    rintro e hpe g rfl
    rw [Bool.eq_false_iff]
    intro hte
    exact hpe ((triggered_some hw hes e p).1 hte).1
  have key : ∀ cs : List (List Str), c ∈ cs → cs.Pairwise (fun c d => ∀ x ∈ c, x ∉ d) → enfComps σ es (some p) cs w = enfComp σ es c w := by
    have hic := hcomp c hc
    intro cs
    induction cs with
    | nil => simp
    | cons d cs ih =>
      intro hm hp
      rw [List.pairwise_cons] at hp
      by_cases hcd : c = d
      · subst hcd
        obtain ⟨w1, g1, g2, _⟩ := enfComp_frame' hw hes hσ hic
        unfold enfComps
        rw [if_pos htr, PyM.bind_ok g1, g1]
        apply enfComps_skip
        intro e hemem
        exact hoff e (fun hpe => hp.1 e hemem p.1 hpc hpe) _ g2.g
      · have hm' : c ∈ cs := by
          rcases List.mem_cons.1 hm with h | h
          · exact absurd h hcd
          · exact h
        unfold enfComps
        rw [hoff d (fun hpd => hp.1 c hm' p.1 hpd hpc) _ rfl]
        exact ih hm' hp.2
  unfold enforce
  rw [k1]
  simp only
  rw [← hcs, key cs hc hpw]

/-! ## C163 -/

/-- `enforce_consistency(p)` for each of the pairs, in this order. -/
def enforceEach (σ : Ord') : List (Str × Str) → PyM Unit
  | [] => pure ()
  | p :: ps => do
    enforce σ (some p)
    enforceEach σ ps

/-- One set transition of each group: every pair is one, no two are connected by set transitions, and every set transition is connected to one of
them. -/
structure OneEach (w : World) (P : List (Str × Str)) : Prop where
  isSet : ∀ p ∈ P, ∃ t f, SetEdge w p.1 p.2 t f
  apart : P.Pairwise (fun p q => ¬SetConn w p.1 q.1)
  every : ∀ n m t f, SetEdge w n m t f → ∃ p ∈ P, SetConn w p.1 n

/-- C163: enforcing the whole atom is enforcing its groups one at a time, in any order: the atom is the same, warnings included. -/
theorem C163_groups {w : World} (hr : Reachable w) {σ : Ord'} (hσ : Shuffles σ) {P : List (Str × Str)} (hP : OneEach w P) :
    enforceEach σ P w = enforce σ none w := by
  have hw := hr.wf
  obtain ⟨es, k1, hes, cs, hcs, hcomp, hpw, hcov⟩ := set_comps hw hσ
  have hall : enforce σ none w = (compsRun σ es cs w, .ok ()) := by
    unfold enforce
    rw [k1]
    simp only
    rw [← hcs, enfComps_all hσ cs hw hes hcomp]
  -- the group of a pair
  have hof : ∀ p : Str × Str, ∃ c, (∃ t f, SetEdge w p.1 p.2 t f) → c ∈ cs ∧ p.1 ∈ c := by
    intro p
    by_cases h : ∃ t f, SetEdge w p.1 p.2 t f
    · obtain ⟨t, f, he⟩ := h
      obtain ⟨c, hc, hpc⟩ := hcov _ _ _ _ he
      exact ⟨c, fun _ => ⟨hc, hpc⟩⟩
    · exact ⟨[], fun k => absurd k h⟩
  choose C hC using hof
  have hseq : ∀ (Q : List (Str × Str)) (v : World), EFrame w v → (∀ p ∈ Q, ∃ t f, SetEdge w p.1 p.2 t f) →
      enforceEach σ Q v = (compsRun σ es (Q.map C) v, .ok ()) := by
    intro Q
    induction Q with
    | nil => intro v _ _; rfl
    | cons p Q ih =>
      intro v hv hQ
      obtain ⟨t, f, he⟩ := hQ p (by simp)
      obtain ⟨c1, c2⟩ := hC p ⟨t, f, he⟩
      have hse : v.setEdges = .ok es := by
        rw [← k1]
        unfold setEdges
        rw [hv.g]
        exact setEdgesL_congr (fun t => by rw [hv.tr]; exact ⟨rfl, rfl⟩) _
      have hwv := hw.frame hv.frame
      have hpc := enforce_pair_comp hwv hσ hse (hv.esOk hes) (c := C p) (by rw [hv.g, ← hcs]; exact c1) ((hv.setEdge _ _ _ _).2 he) c2
      obtain ⟨w1, g1, g2, _⟩ := enfComp_frame' hwv (hv.esOk hes) hσ ((hv.isComp _).2 (hcomp _ c1))
      unfold enforceEach
      rw [PyM.bind_ok (hpc.trans g1), ih w1 (hv.trans _ _ _ g2) (fun q hq => hQ q (by simp [hq]))]
      show _ = (compsRun σ es (Q.map C) (enfComp σ es (C p) v).1, _)
      rw [g1]
  rw [hseq P w (.refl w) hP.isSet, hall]
  have hconn : ∀ {p : Str × Str}, p ∈ P → ∀ n, n ∈ C p ↔ SetConn w p.1 n := by
    intro p hp n
    obtain ⟨c1, c2⟩ := hC p (hP.isSet p hp)
    exact iff_of_eq (congrFun ((hcomp _ c1).eq_conn hw c2) n)
  have hperm : (P.map C).Perm cs := by
    rw [List.perm_ext_iff_of_nodup]
    · intro c
      rw [List.mem_map]
      constructor
      · rintro ⟨p, hp, rfl⟩
        exact (hC p (hP.isSet p hp)).1
      · intro hc
        obtain ⟨_, v, ⟨m, t, f, hv⟩, hvc⟩ := hcomp c hc
        obtain ⟨p, hp, hpv⟩ := hP.every _ _ _ _ hv
        refine ⟨p, hp, ?_⟩
        obtain ⟨c1, c2⟩ := hC p (hP.isSet p hp)
        by_contra hne
        have hv1 : v ∈ C p := (hconn hp v).2 hpv
        have hv2 : v ∈ c := (hvc v).2 .refl
        have : Std.Symm (fun c d : List Str => ∀ x ∈ c, x ∉ d) := ⟨fun a b (h : ∀ x ∈ a, x ∉ b) x hx hx' => h x hx' hx⟩
        exact hpw.forall c1 hc hne v hv1 hv2
    · have : P.Pairwise (fun p q => C p ≠ C q) := by
        refine List.Pairwise.imp_of_mem ?_ hP.apart
        intro p q hp hq h e
        exact h ((hconn hp _).1 (e ▸ (hC q (hP.isSet q hq)).2))
      exact List.pairwise_map.2 this
    · refine List.Pairwise.imp_of_mem ?_ hpw
      intro c d hc hd h e
      subst e
      obtain ⟨_, v, _, hvc⟩ := hcomp c hc
      exact h v ((hvc v).2 .refl) ((hvc v).2 .refl)
  rw [compsRun_perm hσ hperm hw hes (fun c hc => hcomp c (hperm.mem_iff.1 hc))
    ((hperm.pairwise_iff (fun {c d} (h : ∀ x ∈ c, x ∉ d) x hx hx' => h x hx' hx)).2 hpw)]

/-- The two pairs of `twoPairs`, in the other order. -/
example : OneEach twoPairs [ends twoPairs 1, ends twoPairs 0] := by
  have h0 : SetEdge twoPairs (ends twoPairs 0).1 (ends twoPairs 0).2 0 1 := by decide +kernel
  have h1 : SetEdge twoPairs (ends twoPairs 1).1 (ends twoPairs 1).2 1 3 := by decide +kernel
  have hr : Reachable twoPairs := demo_reachable (by decide +kernel)
  refine ⟨?_, ?_, ?_⟩
  · simp only [List.mem_cons, List.not_mem_nil, or_false, forall_eq_or_imp, forall_eq]
    exact ⟨⟨1, 3, h1⟩, ⟨0, 1, h0⟩⟩
  · simp only [List.pairwise_cons, List.mem_cons, List.not_mem_nil, or_false, forall_eq, IsEmpty.forall_iff, implies_true, List.Pairwise.nil, and_true]
    exact twoPairs_separate.symm hr.wf
  · intro n m t f he
    have key : n = (ends twoPairs 0).1 ∨ n = (ends twoPairs 0).2 ∨ n = (ends twoPairs 1).1 ∨ n = (ends twoPairs 1).2 :=
      forall_setEdge (P := fun n _ _ _ => n = (ends twoPairs 0).1 ∨ n = (ends twoPairs 0).2 ∨ n = (ends twoPairs 1).1 ∨ n = (ends twoPairs 1).2)
        (by decide +kernel) he
    rcases key with rfl | rfl | rfl | rfl
    · exact ⟨_, by simp, .refl⟩
    · exact ⟨ends twoPairs 0, by simp, .single ⟨0, 1, h0⟩⟩
    · exact ⟨_, List.mem_cons_self .., .refl⟩
    · exact ⟨ends twoPairs 1, by simp, .single ⟨1, 3, h1⟩⟩

/-! ## C164 -/

theorem enforceT_all (σ : Ord') (w : World) : enforceT σ .all w = enforce σ none w := by
  have : ∀ es cs w, enfCompsT σ es .all cs w = enfComps σ es none cs w := by
    intro es cs
    induction cs with
    | nil => intro w; rfl
    | cons c cs ih =>
      intro w
      unfold enfCompsT enfComps
      rw [if_pos (show triggered _ _ _ none = true from rfl)]
      simp only [triggeredT]
      rw [show enfCompsT σ es .all cs = enfComps σ es none cs from funext ih]
  unfold enforceT enforce
  cases w.setEdges with
  | error e => rfl
  | ok es => exact this _ _ _

theorem enforceT_pair (σ : Ord') (p : Str × Str) (w : World) : enforceT σ (.pair p) w = enforce σ (some p) w := by
  have : ∀ es cs w, enfCompsT σ es (.pair p) cs w = enfComps σ es (some p) cs w := by
    intro es cs
    induction cs with
    | nil => intro w; rfl
    | cons c cs ih =>
      intro w
      unfold enfCompsT enfComps
      rw [show enfCompsT σ es (.pair p) cs = enfComps σ es (some p) cs from funext ih]
      simp only [triggeredT, triggered]
      rcases Bool.eq_false_or_eq_true (inComp w.g es c p) with h | h <;> simp only [h] <;> rfl
  unfold enforceT enforce
  cases w.setEdges with
  | error e => rfl
  | ok es => exact this _ _ _

/-- C164 in full: for the name of a level with a set transition its group is enforced, as for the transition; and so it is for the level itself. -/
def C164_full : Prop := ∀ w, Reachable w → ∀ σ, Shuffles σ → ∀ n m t f, SetEdge w n m t f →
  enforceT σ (.name n) w = enforce σ (some (n, m)) w ∧
  ∀ i, w.g.lev n = some i → (enforceLevel σ (.fine i) w).2 = .ok () ∧
    ∀ k, (enforceLevel σ (.fine i) w).1.eHz k = (enforce σ (some (n, m)) w).1.eHz k

/-- C164 (what holds): with a single group of set transitions the name of any of its levels does what the transition does. -/
theorem C164_single_partial {w : World} (hr : Reachable w) {σ : Ord'} (hσ : Shuffles σ) {n m : Str} {t : Nat} {f : ℚ} (he : SetEdge w n m t f)
    (hone : ∀ a b t f, SetEdge w a b t f → SetConn w n a) : enforceT σ (.name n) w = enforce σ (some (n, m)) w := by
  have hw := hr.wf
  obtain ⟨es, k1, hes, cs, hcs, hcomp, hpw, hcov⟩ := set_comps hw hσ
  obtain ⟨c, hc, hnc⟩ := hcov _ _ _ _ he
  have hmem : ∀ d ∈ cs, ∀ x, x ∈ d ↔ SetConn w n x := by
    intro d hd x
    obtain ⟨_, v, ⟨b, t', f', hv⟩, hvd⟩ := hcomp d hd
    have hnd : n ∈ d := (hvd n).2 (SetConn.symm hw (hone _ _ _ _ hv))
    exact iff_of_eq (congrFun ((hcomp d hd).eq_conn hw hnd) x)
  have hcs1 : cs = [c] := by
    match cs, hc, hpw, hmem with
    | [d], hc, _, _ => simp only [List.mem_singleton] at hc; rw [hc]
    | d :: d' :: cs, hc, hpw, hmem =>
      rw [List.pairwise_cons] at hpw
      exact absurd ((hmem d' (by simp) n).2 .refl) (hpw.1 d' (by simp) n ((hmem d (by simp) n).2 .refl))
  rw [enforce_pair_comp hw hσ k1 hes (c := c) (by rw [← hcs]; exact hc) he hnc]
  unfold enforceT
  rw [k1]
  simp only
  rw [← hcs, hcs1]
  have ht : triggeredT w.g es c (.name n) = .ok true := by
    unfold triggeredT
    simp only
    rw [if_pos (.inr hnc)]
  obtain ⟨w1, g1, _, _⟩ := enfComp_frame' hw hes hσ (hcomp c hc)
  unfold enfCompsT
  rw [ht]
  simp only
  rw [PyM.bind_ok g1, g1]
  rfl

theorem triggeredT_long (g : Graph) (es : List (Str × Str)) {c : List Str} {n : Str} (hl : 3 ≤ n.length) (h : n ∉ c) :
    triggeredT g es c (.name n) = .error .ValueError := by
  match n, hl with
  | x :: y :: z :: r, _ =>
    simp only [triggeredT, h, if_false, or_false, reduceCtorEq]

theorem triggeredT_in (g : Graph) (es : List (Str × Str)) {c : List Str} {n : Str} (hl : 3 ≤ n.length) (h : n ∈ c) :
    triggeredT g es c (.name n) = .ok true := by
  match n, hl with
  | x :: y :: z :: r, _ =>
    simp only [triggeredT, h, if_true, or_true]

/-- C164: with a second group the name of a level raises `ValueError`; its group may have been enforced before or not. -/
theorem C164_second_group {w : World} (hr : Reachable w) {σ : Ord'} (hσ : Shuffles σ) {n m : Str} {t : Nat} {f : ℚ} (hl : 3 ≤ n.length)
    (he : SetEdge w n m t f) {a b : Str} {t' : Nat} {f' : ℚ} (he' : SetEdge w a b t' f') (hno : ¬SetConn w n a) :
    (enforceT σ (.name n) w).2 = .error .ValueError ∧
      ((enforceT σ (.name n) w).1 = w ∨ (enforceT σ (.name n) w).1 = (enforce σ (some (n, m)) w).1) := by
  have hw := hr.wf
  obtain ⟨es, k1, hes, cs, hcs, hcomp, hpw, hcov⟩ := set_comps hw hσ
  obtain ⟨c, hc, hnc⟩ := hcov _ _ _ _ he
  obtain ⟨d, hd, had⟩ := hcov _ _ _ _ he'
  have hnd : n ∉ d := by
    intro h
    exact hno ((iff_of_eq (congrFun ((hcomp d hd).eq_conn hw h) a)).1 had)
  rw [enforce_pair_comp hw hσ k1 hes (c := c) (by rw [← hcs]; exact hc) he hnc]
  have hT : enforceT σ (.name n) w = enfCompsT σ es (.name n) cs w := by
    unfold enforceT
    rw [k1]
    simp only
    rw [← hcs]
  rw [hT]
  match cs, hc, hd, hpw with
  | x :: cs, hc, hd, hpw =>
    rw [List.pairwise_cons] at hpw
    by_cases hx : n ∈ x
    · have hcx : c = x := by
        rcases List.mem_cons.1 hc with h | h
        · exact h
        · exact absurd hnc (hpw.1 c h n hx)
      subst hcx
      obtain ⟨w1, g1, g2, _⟩ := enfComp_frame' hw hes hσ (hcomp c (by simp))
      have hdc : d ∈ cs := by
        rcases List.mem_cons.1 hd with rfl | h
        · exact absurd hx hnd
        · exact h
      have : enfCompsT σ es (.name n) (c :: cs) w = (w1, .error .ValueError) := by
        unfold enfCompsT
        rw [triggeredT_in _ _ hl hx]
        simp only
        rw [PyM.bind_ok g1]
        match cs, hdc, hpw.1 with
        | y :: cs, _, hy =>
          unfold enfCompsT
          rw [triggeredT_long _ _ hl (hy y (by simp) n hx)]
      rw [this, g1]
      exact ⟨rfl, .inr rfl⟩
    · have : enfCompsT σ es (.name n) (x :: cs) w = (w, .error .ValueError) := by
        unfold enfCompsT
        rw [triggeredT_long _ _ hl hx]
      rw [this]
      exact ⟨rfl, .inl rfl⟩

/-- C164: a name without a set transition raises `ValueError` as soon as any transition of the atom has a set frequency; nothing is changed. -/
theorem C164_other_name {w : World} (hr : Reachable w) {σ : Ord'} (hσ : Shuffles σ) {n : Str} (hl : 3 ≤ n.length) (hn : ∀ m t f, ¬SetEdge w n m t f)
    {a b : Str} {t' : Nat} {f' : ℚ} (he' : SetEdge w a b t' f') : enforceT σ (.name n) w = (w, .error .ValueError) := by
  have hw := hr.wf
  obtain ⟨es, k1, hes, cs, hcs, hcomp, hpw, hcov⟩ := set_comps hw hσ
  obtain ⟨d, hd, had⟩ := hcov _ _ _ _ he'
  unfold enforceT
  rw [k1]
  simp only
  rw [← hcs]
  match cs, hd, hcomp with
  | x :: cs, _, hcomp =>
    have hx : n ∉ x := by
      intro h
      obtain ⟨m, t, f, k⟩ := (hcomp x (by simp)).edge hw h
      exact hn m t f k
    unfold enfCompsT
    rw [triggeredT_long _ _ hl hx]

theorem enfCompsT_skip {σ : Ord'} {es : List (Str × Str)} {T : Trigger} {w : World} : ∀ cs : List (List Str),
    (∀ c ∈ cs, triggeredT w.g es c T = .ok false) → enfCompsT σ es T cs w = (w, .ok ()) := by
  intro cs
  induction cs with
  | nil => intro _; rfl
  | cons c cs ih =>
    intro h
    unfold enfCompsT
    rw [h c (by simp)]
    exact ih (fun d hd => h d (by simp [hd]))

/-- C164, the object of a level with a hyperfine structure: with I or J equal to 1/2 (two hyperfine levels) nothing is enforced and there is no error; in
all other cases `ValueError` is raised.  Only the hyperfine levels have been computed. -/
theorem C164_level {w : World} (hr : Reachable w) (hI : IsSpin w.I) {σ : Ord'} (hσ : Shuffles σ) {i : Nat} {J : ℚ} (hf : Findable w i J) {a b : Str}
    {t : Nat} {f : ℚ} (he : SetEdge w a b t f) (hclean : ∀ n m t f, SetEdge w n m t f → '=' ∉ n) :
    enforceLevel σ (.fine i) w = ((lvKeys i w).1, if min w.I J = 1/2 then .ok () else .error .ValueError) ∧
      (∀ k, (lvKeys i w).1.eHz k = w.eHz k) ∧ (lvKeys i w).1.warned = w.warned := by
  obtain ⟨w', l, ⟨_, hk, _, _⟩, hlen, ⟨Fs, _, hFs⟩, _, _⟩ := C116_hyperfine hr hI hf
  have hw' : (lvKeys i w).1 = w' := by rw [hk]
  have hfr : LFrame w w' := by
    have h1 := lazyHF_frame i w
    have : (lvKeys i w).1 = (lazyHF i w).1 := by
      unfold lvKeys
      cases h : lazyHF i w with
      | mk v r =>
        cases r with
        | ok u => rw [PyM.bind_ok h]; rfl
        | error e => rw [PyM.bind_err h]
    rw [← hw', this]
    exact h1
  refine ⟨?_, ?_, ?_⟩
  · obtain ⟨es, k1, hes, cs, hcs, hcomp, hpw, hcov⟩ := set_comps hr.wf hσ
    obtain ⟨d, hd, had⟩ := hcov _ _ _ _ he
    unfold enforceLevel
    rw [k1]
    simp only
    rw [← hcs, hw']
    match cs, hd, hcomp with
    | x :: cs, _, hcomp =>
      show (lvKeys i >>= fun ks => enfCompsT σ es (.keys ks) (x :: cs)) w = _
      rw [PyM.bind_ok hk]
      have hlen' : (l.map Prod.fst).length = l.length := by simp
      have heq : ∀ k ∈ l.map Prod.fst, '=' ∈ k := by
        intro k hkk
        rw [hFs] at hkk
        obtain ⟨F, _, rfl⟩ := List.mem_map.1 hkk
        simp
      revert hlen' heq
      generalize l.map Prod.fst = ks
      intro hlen' heq
      by_cases h2 : min w.I J = 1/2
      · rw [if_pos h2]
        have : ks.length = 2 := by
          rw [hlen']
          rw [h2] at hlen
          norm_num at hlen
          exact_mod_cast hlen
        match ks, this with
        | [k1, k2], _ =>
          apply enfCompsT_skip
          intro c hc
          have : k1 ∉ c := by
            intro h
            obtain ⟨m, t, f, h'⟩ := (hcomp c hc).edge hr.wf h
            exact hclean _ _ _ _ h' (heq k1 (by simp))
          simp [triggeredT, inComp, this]
      · rw [if_neg h2]
        have hn2 : ks.length ≠ 2 := by
          intro h
          rw [← hlen', h] at hlen
          apply h2
          norm_num at hlen
          linarith
        have hn0 : ks.length ≠ 0 := by
          intro h
          rw [← hlen', h] at hlen
          have : (0 : ℚ) ≤ min w.I J := le_min hI.nonneg hf.spin.nonneg
          norm_num at hlen
          linarith
        have : triggeredT w'.g es x (.keys ks) = .error .ValueError := by
          match ks, hn0, hn2 with
          | [_], _, _ => rfl
          | _ :: _ :: _ :: _, _, _ => rfl
        unfold enfCompsT
        rw [this]
  · intro k
    rw [hw']
    obtain ⟨s, hs⟩ := hfr.lv k
    unfold eHz
    rw [hs]
  · rw [hw']
    exact hfr.warned

theorem enfCompsT_keys {σ : Ord'} {es : List (Str × Str)} {x : List Str} {cs : List (List Str)} {ks : List Str} {w : World} (h0 : ks ≠ [])
    (hk : ∀ k ∈ ks, ∀ c ∈ x :: cs, k ∉ c) :
    enfCompsT σ es (.keys ks) (x :: cs) w = (w, if ks.length = 2 then .ok () else .error .ValueError) := by
  match ks, h0, hk with
  | [k1, k2], _, hk =>
    apply enfCompsT_skip
    intro c hc
    simp [triggeredT, inComp, hk k1 (by simp) c hc]
  | [_], _, _ => rfl
  | _ :: _ :: _ :: _, _, _ => simp [enfCompsT, triggeredT]

/-- C164, the object of a hyperfine level: with F = 1/2 (two Zeeman levels) nothing is enforced and there is no error; in all other cases `ValueError` is
raised.  Only the Zeeman levels have been computed. -/
theorem C164_hyperfine {w : World} (hr : Reachable w) (hI : IsSpin w.I) {σ : Ord'} (hσ : Shuffles σ) {i : Nat} {J : ℚ} (hf : Findable w i J) {k0 : Str}
    {j : Nat} (hj : (w.lv i).subs.get? k0 = some j) {a b : Str} {t : Nat} {f : ℚ} (he : SetEdge w a b t f)
    (hclean : ∀ n m t f, SetEdge w n m t f → '=' ∉ n) :
    ∃ F, (w.hf j).term.F = some F ∧
      enforceLevel σ (.hyp j) w = ((hfKeys j w).1, if F = 1/2 then .ok () else .error .ValueError) ∧
      (∀ k, (hfKeys j w).1.eHz k = w.eHz k) ∧ (hfKeys j w).1.warned = w.warned := by
  obtain ⟨F, w', l, hF, ⟨_, hk, _, _⟩, hlen, ⟨ms, _, hms⟩, _, _⟩ := C116_zeeman hr hI hf hj
  have hw' : (hfKeys j w).1 = w' := by rw [hk]
  have hfr : LFrame w w' := by
    have h1 := lazyZ_frame j w
    have : (hfKeys j w).1 = (lazyZ j w).1 := by
      unfold hfKeys
      cases h : lazyZ j w with
      | mk v r =>
        cases r with
        | ok u => rw [PyM.bind_ok h]; rfl
        | error e => rw [PyM.bind_err h]
    rw [← hw', this]
    exact h1
  refine ⟨F, hF, ?_, ?_, ?_⟩
  · obtain ⟨es, k1, hes, cs, hcs, hcomp, hpw, hcov⟩ := set_comps hr.wf hσ
    obtain ⟨d, hd, had⟩ := hcov _ _ _ _ he
    unfold enforceLevel
    rw [k1]
    simp only
    rw [← hcs, hw']
    match cs, hd, hcomp with
    | x :: cs, _, hcomp =>
      show (hfKeys j >>= fun ks => enfCompsT σ es (.keys ks) (x :: cs)) w = _
      rw [PyM.bind_ok hk]
      have hlen' : (l.map Prod.fst).length = l.length := by simp
      have hF0 : (0 : ℚ) ≤ F := by
        obtain ⟨F', hm, _, _, ht⟩ := sub_hyp hr hf hj
        have := hfFs_spin hI hf.spin hm
        have e : F' = F := by
          rw [ht] at hF
          simpa [Term.withF, hf.hF] using hF
        rw [← e]
        exact this.nonneg
      rw [enfCompsT_keys]
      · congr 1
        rw [hlen']
        by_cases h2 : F = 1/2
        · have : l.length = 2 := by
            rw [h2] at hlen
            norm_num at hlen
            exact_mod_cast hlen
          rw [if_pos h2, if_pos this]
        · rw [if_neg h2, if_neg]
          intro h
          apply h2
          rw [h] at hlen
          norm_num at hlen
          linarith
      · intro h
        rw [← hlen', h] at hlen
        simp at hlen
        linarith
      · intro k hkk c hc hkc
        rw [hms] at hkk
        obtain ⟨m, _, rfl⟩ := List.mem_map.1 hkk
        obtain ⟨m', t, f, h'⟩ := (hcomp c hc).edge hr.wf hkc
        exact hclean _ _ _ _ h' (by simp)
  · intro k
    rw [hw']
    obtain ⟨s, hs⟩ := hfr.lv k
    unfold eHz
    rw [hs]
  · rw [hw']
    exact hfr.warned

/-- C164: a text of two characters that is no name of a level with a set transition is taken as the pair of its characters. -/
theorem C164_two_characters {w : World} (hr : Reachable w) {σ : Ord'} (hσ : Shuffles σ) {x y : Char} (hn : ∀ m t f, ¬SetEdge w [x, y] m t f) :
    enforceT σ (.name [x, y]) w = enforce σ (some ([x], [y])) w := by
  have hw := hr.wf
  rw [← enforceT_pair]
  obtain ⟨es, k1, hes, cs, hcs, hcomp, hpw, hcov⟩ := set_comps hw hσ
  unfold enforceT
  rw [k1]
  simp only
  rw [← hcs]
  have key : ∀ (cs : List (List Str)) (v : World), EFrame w v → (∀ c ∈ cs, IsComp w c) →
      enfCompsT σ es (.name [x, y]) cs v = enfCompsT σ es (.pair ([x], [y])) cs v := by
    intro cs
    induction cs with
    | nil => intro v _ _; rfl
    | cons c cs ih =>
      intro v hv hc
      have hx : [x, y] ∉ c := by
        intro h
        obtain ⟨m, t, f, k⟩ := (hc c (by simp)).edge hw h
        exact hn m t f k
      have ht : triggeredT v.g es c (.name [x, y]) = triggeredT v.g es c (.pair ([x], [y])) := by
        simp [triggeredT, hx]
      obtain ⟨w1, g1, g2, _⟩ := enfComp_frame' (hw.frame hv.frame) (hv.esOk hes) hσ ((hv.isComp c).2 (hc c (by simp)))
      have i1 := ih w1 (hv.trans _ _ _ g2) (fun d hd => hc d (by simp [hd]))
      have i2 := ih v hv (fun d hd => hc d (by simp [hd]))
      unfold enfCompsT
      rw [ht, i2]
      simp only [PyM.bind_ok g1, i1]
  exact key cs w (.refl w) hcomp

/-- C164: a Zeeman level has no sublevels, so it counts as no argument and the whole atom is enforced. -/
theorem C164_zeeman (σ : Ord') (z : Nat) (w : World) : enforceLevel σ (.zee z) w = enforce σ none w := by
  rw [← enforceT_all]
  have : ∀ es cs w, enfCompsT σ es (.keys []) cs w = enfCompsT σ es .all cs w := by
    intro es cs
    induction cs with
    | nil => intro w; rfl
    | cons c cs ih =>
      intro w
      unfold enfCompsT
      rw [show enfCompsT σ es (.keys []) cs = enfCompsT σ es .all cs from funext ih]
      rfl
  unfold enforceLevel enforceT
  cases w.setEdges with
  | error e => rfl
  | ok es =>
    simp only
    cases Graph.compsFrom (endpoints es) (fun n => subNbrs w.g es n) (σ .comps (endpoints es)) [] with
    | nil => rfl
    | cons c cs => exact this _ _ _

/-- C164: a transition with exactly two subtransitions enforces nothing, one without any enforces the whole atom, and any other raises `ValueError`. -/
theorem C164_transition {w : World} (hr : Reachable w) {σ : Ord'} (hσ : Shuffles σ) {a b : Str} {t : Nat} {f : ℚ} (he : SetEdge w a b t f) (k : Nat) :
    enforceT σ (.trans k) w = if k = 0 then enforce σ none w else (w, if k = 2 then .ok () else .error .ValueError) := by
  by_cases h0 : k = 0
  · rw [if_pos h0, ← enforceT_all]
    subst h0
    have : ∀ es cs w, enfCompsT σ es (.trans 0) cs w = enfCompsT σ es .all cs w := by
      intro es cs
      induction cs with
      | nil => intro w; rfl
      | cons c cs ih =>
        intro w
        unfold enfCompsT
        rw [show enfCompsT σ es (.trans 0) cs = enfCompsT σ es .all cs from funext ih]
        rfl
    unfold enforceT
    cases w.setEdges with
    | error e => rfl
    | ok es => exact this _ _ _
  · rw [if_neg h0]
    obtain ⟨es, k1, hes, cs, hcs, hcomp, hpw, hcov⟩ := set_comps hr.wf hσ
    obtain ⟨d, hd, had⟩ := hcov _ _ _ _ he
    unfold enforceT
    rw [k1]
    simp only
    rw [← hcs]
    by_cases h2 : k = 2
    · subst h2
      rw [if_pos rfl]
      exact enfCompsT_skip cs (fun _ _ => rfl)
    · rw [if_neg h2]
      match cs, hd with
      | x :: cs, _ =>
        have : triggeredT w.g es x (.trans k) = .error .ValueError := by
          match k, h0, h2 with
          | 1, _, _ => rfl
          | _ + 3, _, _ => rfl
        unfold enfCompsT
        rw [this]

/-- C164: without set frequencies nothing happens, whatever the argument. -/
theorem C164_none_set {w : World} (hr : Reachable w) {σ : Ord'} (hσ : Shuffles σ) (h : ∀ a b t f, ¬SetEdge w a b t f) (T : Trigger) (r : Ref) :
    enforceT σ T w = (w, .ok ()) ∧ enforceLevel σ r w = (w, .ok ()) := by
  obtain ⟨es, k1, hes, cs, hcs, hcomp, hpw, hcov⟩ := set_comps hr.wf hσ
  unfold enforceT enforceLevel
  rw [k1]
  simp only
  rw [← hcs]
  match cs, hcomp with
  | [], _ => exact ⟨rfl, rfl⟩
  | x :: cs, hcomp =>
    obtain ⟨_, v, ⟨m, t, f, k⟩, _⟩ := hcomp x (by simp)
    exact absurd k (h _ _ _ _)

/-- The two levels g and a in an atom with nuclear spin 1/2, the line between them set to 3. -/
def halfSpin : World := runAll (threeLevels 0 1 5 ++ [.newTrans 0 1 (some 3) .none none]) (emptyAtom (1/2) 0)

/-- C164 fails: passing the level a does nothing and says nothing, where passing the transition puts it at 3. -/
theorem C164_fails : ¬C164_full := by
  intro h
  have := ((h halfSpin ((Reachable.empty _ _).runAll (by decide +kernel)) idOrd idOrd_shuffles (demoName 'a') (demoName 'g') 0 3 (by decide +kernel)).2 1
    (by decide +kernel)).2 1
  revert this
  decide +kernel

/-- C164, hypotheses of the theorem about level objects. -/
example : Reachable halfSpin ∧ IsSpin halfSpin.I ∧ Findable halfSpin 1 (1/2) ∧ SetEdge halfSpin (demoName 'a') (demoName 'g') 0 3 ∧
    (enforceLevel idOrd (.fine 1) halfSpin).2 = .ok () ∧ (enforceLevel idOrd (.fine 1) halfSpin).1.eHz 1 = 1 ∧
    (enforceLevel idOrd (.zee 0) halfSpin).1.eHz 1 = 3 ∧ (enforceLevel idOrd (.fine 1) (runAll (threeLevels 0 1 5 ++
      [.newTrans 0 1 (some 3) .none none]) (emptyAtom 0 0))).2 = .error .ValueError :=
  ⟨(Reachable.empty _ _).runAll (by decide +kernel), ⟨1, by decide +kernel⟩,
    ⟨by decide +kernel, by decide +kernel, by decide +kernel, ⟨1, by decide +kernel⟩, by decide +kernel, by decide +kernel⟩, by decide +kernel,
    by decide +kernel, by decide +kernel, by decide +kernel, by decide +kernel⟩

/-- The hyperfine levels of a are F=0 and F=1: both raise. -/
example : let w := (lvKeys 1 halfSpin).1
    (w.lv 1).subs.keys = ["F=0".toList, "F=1".toList] ∧
    ((w.lv 1).subs.get? "F=0".toList).map (fun j => (enforceLevel idOrd (.hyp j) w).2) = some (.error .ValueError) ∧
    ((w.lv 1).subs.get? "F=1".toList).map (fun j => (enforceLevel idOrd (.hyp j) w).2) = some (.error .ValueError) := by decide +kernel

/-- With I = 0 the only hyperfine level has F = 1/2: nothing happens. -/
example : let w := (lvKeys 1 (runAll (threeLevels 0 1 5 ++ [.newTrans 0 1 (some 3) .none none]) (emptyAtom 0 0))).1
    ((w.lv 1).subs.get? "F=1/2".toList).map (fun j => ((enforceLevel idOrd (.hyp j) w).2, (enforceLevel idOrd (.hyp j) w).1.eHz 1)) = some (.ok (), 1) := by
  decide +kernel

/-- C164 fails for names too: the level `b` of the second of two groups. -/
theorem C164_name_fails : ¬ ∀ w, Reachable w → ∀ σ, Shuffles σ → ∀ n m t f, SetEdge w n m t f → (enforceT σ (.name n) w).2 = .ok () := by
  intro h
  have := h twoPairs (demo_reachable (by decide +kernel)) idOrd idOrd_shuffles (ends twoPairs 1).1 (ends twoPairs 1).2 1 3 (by decide +kernel)
  revert this
  decide +kernel

/-- One group: the chain of three levels. -/
example : ∃ n m t f, SetEdge tunedChain n m t f ∧ ∀ a b t f, SetEdge tunedChain a b t f → SetConn tunedChain n a := by
  have h0 : SetEdge tunedChain (ends tunedChain 0).1 (ends tunedChain 0).2 0 1 := by decide +kernel
  have h1 : SetEdge tunedChain (ends tunedChain 0).2 (ends tunedChain 1).2 1 1 := by decide +kernel
  refine ⟨_, _, _, _, h0, ?_⟩
  intro a b t f he
  have key : a = (ends tunedChain 0).1 ∨ a = (ends tunedChain 0).2 ∨ a = (ends tunedChain 1).2 :=
    forall_setEdge (P := fun n _ _ _ => n = (ends tunedChain 0).1 ∨ n = (ends tunedChain 0).2 ∨ n = (ends tunedChain 1).2) (by decide +kernel) he
  rcases key with rfl | rfl | rfl
  · exact .refl
  · exact .single ⟨_, _, h0⟩
  · exact (Relation.ReflTransGen.single ⟨_, _, h0⟩).tail ⟨_, _, h1⟩

/-- Two groups, and a name of neither. -/
example : (∃ n m t f, SetEdge twoPairs n m t f ∧ 3 ≤ n.length) ∧ ¬SetConn twoPairs (ends twoPairs 0).1 (ends twoPairs 1).1 ∧
    ∀ m t f, ¬SetEdge twoPairs (demoName 'z') m t f := by
  refine ⟨⟨(ends twoPairs 0).1, (ends twoPairs 0).2, 0, 1, by decide +kernel, by decide +kernel⟩, twoPairs_separate, ?_⟩
  intro m t f he
  exact forall_setEdge (P := fun n _ _ _ => n ≠ demoName 'z') (by decide +kernel) he rfl

end AtomTk
