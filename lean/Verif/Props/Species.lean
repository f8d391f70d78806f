import Verif.Model.Species
import Verif.Props.AddTrans
import Verif.Props.Tuning

/-!
# The species scripts: C151
-/

namespace AtomTk
open Util World

/-- A level of this name, found by it, with a value of J. -/
def Known (w : World) (n : Str) : Prop := Plain w n ∧ ∃ i J, w.g.lev n = some i ∧ (w.lv i).term.J = some J

/-- `atom.transitions` has a transition between the levels of these names, with this frequency. -/
def HasLine (w : World) (a b : Str) (f : ℚ) : Prop := ∃ t, w.g.adj a b = some t ∧ w.freqHz t = f

/-- The frequencies set are those of the list, all of them met. -/
structure Lines (w : World) (S : List (Str × Str × ℚ)) : Prop where
  reach : Reachable w
  settled : InTune w
  sets : ∀ n m f, (∃ t, SetEdge w n m t f) ↔ ((n, m, f) ∈ S ∨ (m, n, f) ∈ S)

theorem Lines.has {w : World} {S : List (Str × Str × ℚ)} (h : Lines w S) {a b : Str} {f : ℚ} (hm : (a, b, f) ∈ S) : HasLine w a b f := by
  obtain ⟨t, ht⟩ := (h.sets a b f).2 (.inl hm)
  obtain ⟨x, y⟩ := h.settled.met _ _ _ _ ht
  exact ⟨t, ht.1, freqHz_of (h.reach.wf.edge _ _ _ ht.1).2.2.2.2.2 x y⟩

/-- The name is in none of the pairs. -/
def Unused (S : List (Str × Str × ℚ)) (n : Str) : Prop := ∀ p ∈ S, p.1 ≠ n ∧ p.2.1 ≠ n

theorem Lines.loose {w : World} {S : List (Str × Str × ℚ)} (h : Lines w S) {n : Str} {i : Nat} (hi : w.g.lev n = some i) (hu : Unused S n) :
    Loose w i := by
  intro m t f he
  rw [(h.reach.wf.node _ _ hi).1] at he
  rcases (h.sets n m f).1 ⟨t, he⟩ with h | h
  · exact (hu _ h).1 rfl
  · exact (hu _ h).2 rfl

theorem known_frame {w w' : World} (h : EFrame w w') {n : Str} (hk : Known w n) : Known w' n := by
  obtain ⟨⟨h1, h2⟩, i, J, h3, h4⟩ := hk
  obtain ⟨E, b, e⟩ := h.lv i
  exact ⟨⟨h1, by rw [h.lalias]; exact h2⟩, i, J, by rw [h.g]; exact h3, by rw [e]; exact h4⟩

/-- Setting a frequency of a transition between two levels one of which has none set. -/
theorem Lines.set {w : World} {S : List (Str × Str × ℚ)} (h : Lines w S) {a b : Str} {ia ib t : Nat} (hab : a ≠ b) (ha : w.g.lev a = some ia)
    (hb : w.g.lev b = some ib) (hadj : w.g.adj a b = some t) (hu : Unused S a ∨ Unused S b) {σ : Ord'} (hσ : Shuffles σ) {f : ℚ} (hf : 0 ≤ f) :
    ∃ w', setFrequency σ t f w = (w', .ok ()) ∧ Lines w' ((a, b, f) :: S) ∧ EFrame (withFreq w t f) w' ∧ w'.warned = w.warned ∧
      ∀ n i, w.g.lev n = some i → n ≠ a → n ≠ b → w'.eHz i = w.eHz i := by
  have hw := h.reach.wf
  obtain ⟨k1, kb, k3, k4, k5, k6⟩ := hw.edge _ _ _ hadj
  have na := (hw.node _ _ ha).1
  have nb := (hw.node _ _ hb).1
  have hlu : ((w.tr t).lower = ia ∧ (w.tr t).upper = ib) ∨ ((w.tr t).lower = ib ∧ (w.tr t).upper = ia) := by
    rcases k5 with ⟨e1, e2⟩ | ⟨e1, e2⟩
    · rw [← e1, ha] at k3; rw [← e2, hb] at k4
      exact .inl ⟨(Option.some.inj k3).symm, (Option.some.inj k4).symm⟩
    · rw [← e2, hb] at k3; rw [← e1, ha] at k4
      exact .inr ⟨(Option.some.inj k3).symm, (Option.some.inj k4).symm⟩
  have hne : ia ≠ ib := by rintro rfl; exact hab (na.symm.trans nb)
  have hin : InAtom w t := by
    unfold InAtom
    rcases k6 with ⟨e1, e2⟩ | ⟨e1, e2⟩ <;> rcases hlu with ⟨e3, e4⟩ | ⟨e3, e4⟩ <;> rw [e1, e2, e3, e4, na, nb]
    · exact hadj
    · rw [hw.gok.symm]; exact hadj
    · rw [hw.gok.symm]; exact hadj
    · exact hadj
  have h0 : (w.tr t).setFreq = none := by
    by_contra hc
    obtain ⟨g, hg⟩ := Option.ne_none_iff_exists'.1 hc
    rcases (h.sets a b g).1 ⟨t, hadj, hg⟩ with hm | hm <;> rcases hu with hu | hu
    · exact (hu _ hm).1 rfl
    · exact (hu _ hm).2 rfl
    · exact (hu _ hm).2 rfl
    · exact (hu _ hm).1 rfl
  have hloose : Loose w (w.tr t).lower ∨ Loose w (w.tr t).upper := by
    rcases hu with hu | hu
    · have := h.loose ha hu
      rcases hlu with ⟨e3, e4⟩ | ⟨e3, e4⟩
      · exact .inl (by rw [e3]; exact this)
      · exact .inr (by rw [e4]; exact this)
    · have := h.loose hb hu
      rcases hlu with ⟨e3, e4⟩ | ⟨e3, e4⟩
      · exact .inr (by rw [e4]; exact this)
      · exact .inl (by rw [e3]; exact this)
  obtain ⟨w', e1, e2, e3, e4, -, e6⟩ := tune_step hw h.settled hσ hin h0 (f := f)
    (by rcases hlu with ⟨e3, e4⟩ | ⟨e3, e4⟩ <;> rw [e3, e4] <;> [exact hne; exact hne.symm]) hf hloose
  refine ⟨w', e1, ⟨?_, e2, ?_⟩, e3, e4, ?_⟩
  · have := Reachable.step (.setFrequency σ t f) h.reach trivial
    rw [show (Op.setFrequency σ t f).run w = setFrequency σ t f w from rfl, e1] at this
    exact this
  · intro n m g
    have key : (∃ t', SetEdge w' n m t' g) ↔ ((g = f ∧ w.g.adj n m = some t) ∨ ∃ t', SetEdge w n m t' g) := by
      constructor
      · rintro ⟨t', ht'⟩
        rw [e3.setEdge, withFreq_setEdge' h0] at ht'
        rcases ht' with ⟨rfl, rfl, q⟩ | q
        · exact .inl ⟨rfl, q⟩
        · exact .inr ⟨t', q⟩
      · rintro (⟨rfl, q⟩ | ⟨t', q⟩)
        · exact ⟨t, by rw [e3.setEdge, withFreq_setEdge' h0]; exact .inl ⟨rfl, rfl, q⟩⟩
        · exact ⟨t', by rw [e3.setEdge, withFreq_setEdge' h0]; exact .inr q⟩
    rw [key, h.sets]
    have hnm : w.g.adj n m = some t ↔ (n = a ∧ m = b) ∨ (n = b ∧ m = a) := by
      constructor
      · intro q
        rcases (hw.edge _ _ _ q).2.2.2.2.1 with ⟨x, y⟩ | ⟨x, y⟩ <;> rcases hlu with ⟨z, u⟩ | ⟨z, u⟩ <;>
          simp only [z, u, na, nb] at x y
        · exact .inl ⟨x, y⟩
        · exact .inr ⟨x, y⟩
        · exact .inr ⟨x, y⟩
        · exact .inl ⟨x, y⟩
      · rintro (⟨rfl, rfl⟩ | ⟨rfl, rfl⟩)
        · exact hadj
        · rw [hw.gok.symm]; exact hadj
    rw [hnm]
    simp only [List.mem_cons, Prod.mk.injEq]
    constructor
    · rintro (⟨q, ⟨x, y⟩ | ⟨x, y⟩⟩ | q | q)
      · exact .inl (.inl ⟨x, y, q⟩)
      · exact .inr (.inl ⟨y, x, q⟩)
      · exact .inl (.inr q)
      · exact .inr (.inr q)
    · rintro ((⟨x, y, q⟩ | q) | (⟨x, y, q⟩ | q))
      · exact .inl ⟨q, .inl ⟨x, y⟩⟩
      · exact .inr (.inl q)
      · exact .inl ⟨q, .inr ⟨y, x⟩⟩
      · exact .inr (.inr q)
  · intro n i hi h1 h2
    have p1 : i ≠ ia := by rintro rfl; exact h1 ((hw.node _ _ hi).1.symm.trans na)
    have p2 : i ≠ ib := by rintro rfl; exact h2 ((hw.node _ _ hi).1.symm.trans nb)
    rcases hlu with ⟨z, u⟩ | ⟨z, u⟩
    · exact e6 n i hi (by rw [z]; exact p1) (by rw [u]; exact p2)
    · exact e6 n i hi (by rw [z]; exact p2) (by rw [u]; exact p1)

/-- The atom after a transition between two of its levels has been made. -/
def pairW (w : World) (i j : Nat) (A Ji Jj : ℚ) : World :=
  { w with
    ntr := w.ntr + 1
    tr := upd w.tr w.ntr (finished w i j none (.hz A) none Ji Jj)
    g := (w.g.addEdge (w.lname (if w.eHz j > w.eHz i then i else j)) (w.lname (if w.eHz j > w.eHz i then j else i)) w.ntr).addEdge
      (w.lname (if w.eHz j > w.eHz i then i else j)) (w.lname (if w.eHz j > w.eHz i then j else i)) w.ntr }

theorem trAdd_pair {w : World} {i j : Nat} {A Ji Jj : ℚ} (hin : (w.lv i).inAtom = true) (hi : (w.lv i).term.J = some Ji)
    (hj : (w.lv j).term.J = some Jj) :
    ∃ w1, newTrans i j none (.hz A) none w = (w1, .ok w.ntr) ∧ trAddToAtom w.ntr w1 = (pairW w i j A Ji Jj, .ok ()) := by
  refine ⟨_, newTrans_ok w i j none (.hz A) none Ji Jj hin hi hj (by simp), ?_⟩
  unfold trAddToAtom
  simp only [upd_same, finished, List.length_nil, if_true]
  rfl

theorem pairLevels {w : World} {i j : Nat} {A Ji Jj : ℚ} (σ : Ord') (hin : (w.lv i).inAtom = true) (hi : (w.lv i).term.J = some Ji)
    (hj : (w.lv j).term.J = some Jj) : addTransLevels σ i j none (.hz A) none w = (pairW w i j A Ji Jj, .ok w.ntr) := by
  obtain ⟨w1, e1, e2⟩ := trAdd_pair (A := A) hin hi hj
  have et : (pairW w i j A Ji Jj).tr w.ntr = finished w i j none (.hz A) none Ji Jj := by simp [pairW]
  have e3 : regTAlias w.ntr (pairW w i j A Ji Jj) = (pairW w i j A Ji Jj, .ok ()) := by
    unfold regTAlias; rw [et]; rfl
  have e4 : enforceIfSet σ w.ntr (pairW w i j A Ji Jj) = (pairW w i j A Ji Jj, .ok ()) := by
    unfold enforceIfSet; rw [et]; rfl
  unfold addTransLevels
  rw [PyM.bind_ok e1]
  have e5 : addTransition σ w.ntr w1 = (pairW w i j A Ji Jj, .ok ()) := by
    unfold addTransition
    rw [PyM.bind_ok e2, PyM.bind_ok e3, e4]
  rw [PyM.bind_ok e5]
  rfl

/-- The new transition between two levels found by their names. -/
structure Paired (w w' : World) (a b : Str) (A : ℚ) : Prop where
  adj : w'.g.adj a b = some w.ntr
  rate : (w'.tr w.ntr).A = some A
  old : ∀ t, t < w.ntr → w'.tr t = w.tr t
  lines : ∀ S, Lines w S → Unused S b → Lines w' S
  known : ∀ n, Known w n → Known w' n
  lev : ∀ n, w'.g.lev n = w.g.lev n
  rest : ∀ c d, ¬((c = a ∧ d = b) ∨ (c = b ∧ d = a)) → w'.g.adj c d = w.g.adj c d

theorem paired {w : World} (hr : Reachable w) {a b : Str} {A : ℚ} (ha : Known w a) (hb : Known w b) :
    ∃ w', pairNamed a b A w = (w', .ok w.ntr) ∧ (∀ σ, addNamed σ a b A w = (w', .ok w.ntr)) ∧ Paired w w' a b A := by
  obtain ⟨pa, i, Ji, hi, hJi⟩ := ha
  obtain ⟨pb, j, Jj, hj, hJj⟩ := hb
  have hin := (hr.wf.node _ _ hi).2.1
  have hn := hr.wf.gok.nodup
  have l1 := levelsGet_plain hn pa hi
  have l2 := levelsGet_plain hn pb hj
  obtain ⟨w1, e1, e2⟩ := trAdd_pair (A := A) hin hJi hJj
  refine ⟨pairW w i j A Ji Jj, ?_, ?_, ?_⟩
  · have e0 : newTransNamed a b none (.hz A) none w = (w1, .ok w.ntr) := by
      unfold newTransNamed
      rw [PyM.bind_ok l1, PyM.bind_ok l2]
      exact e1
    unfold pairNamed
    rw [PyM.bind_ok e0, PyM.bind_ok e2]
    rfl
  · intro σ
    unfold addNamed
    rw [PyM.bind_ok l1, PyM.bind_ok l2]
    exact pairLevels σ hin hJi hJj
  · obtain ⟨w', m1, m2, m3⟩ := addTransLevels_spec hr idOrd_shuffles none (.hz A) none (by simp) hi hj hJi hJj
    rw [pairLevels idOrd hin hJi hJj] at m1
    obtain rfl : pairW w i j A Ji Jj = w' := (Prod.mk.inj m1).1
    have hlev : ∀ n, (pairW w i j A Ji Jj).g.lev n = w.g.lev n := fun n => by
      show ((w.g.addEdge _ _ _).addEdge _ _ _).lev n = _
      rw [Graph.lev_addEdge, Graph.lev_addEdge]
    refine ⟨m2.adj, m2.rate, m2.old, ?_, ?_, hlev, m2.rest⟩
    · intro S hS hu
      have hse : ∀ n m t f, SetEdge (pairW w i j A Ji Jj) n m t f ↔ SetEdge w n m t f := by
        intro n m t f
        have hno : ∀ t', ¬SetEdge w a b t' f := fun t' h => by
          rcases (hS.sets a b f).1 ⟨t', h⟩ with h | h
          · exact (hu _ h).2 rfl
          · exact (hu _ h).1 rfl
        by_cases hp : (n = a ∧ m = b) ∨ (n = b ∧ m = a)
        · have h1 : (pairW w i j A Ji Jj).g.adj n m = some w.ntr := by
            rcases hp with ⟨rfl, rfl⟩ | ⟨rfl, rfl⟩
            · exact m2.adj
            · exact m2.adj'
          constructor
          · rintro ⟨h2, h3⟩
            rw [h1] at h2
            obtain rfl := Option.some.inj h2
            rw [m2.freq] at h3
            cases h3
          · intro h2
            exfalso
            rcases hp with ⟨rfl, rfl⟩ | ⟨rfl, rfl⟩
            · exact hno _ h2
            · exact hno _ (h2.symm hr.wf)
        · unfold SetEdge
          rw [m2.rest _ _ hp]
          constructor
          · rintro ⟨h1, h2⟩
            rw [m2.old _ (hr.wf.edge _ _ _ h1).1] at h2
            exact ⟨h1, h2⟩
          · rintro ⟨h1, h2⟩
            exact ⟨h1, by rw [m2.old _ (hr.wf.edge _ _ _ h1).1]; exact h2⟩
      refine ⟨m3, ⟨?_, ?_⟩, ?_⟩
      · intro n m t f h
        rw [hse] at h
        have := hS.settled.met _ _ _ _ h
        rw [← m2.old _ (hr.wf.edge _ _ _ h.1).1] at this
        exact this
      · intro n k hk
        rw [hlev] at hk
        simp only [hse]
        exact hS.settled.pins n k hk
      · intro n m f
        simp only [hse]
        exact hS.sets n m f
    · rintro n ⟨h1, k, J, h2, h3⟩
      exact ⟨h1, k, J, by rw [hlev]; exact h2, h3⟩

/-- The transition between the levels of these names has this rate. -/
def HasRate (w : World) (a b : Str) (A : ℚ) : Prop := ∃ t, w.g.adj a b = some t ∧ (w.tr t).A = some A

theorem HasRate.set {w w' : World} {a b : Str} {A f : ℚ} {t : Nat} (h : HasRate w a b A) (he : EFrame (withFreq w t f) w') :
    HasRate w' a b A := by
  obtain ⟨u, h1, h2⟩ := h
  refine ⟨u, by rw [he.g]; exact h1, ?_⟩
  rw [he.tr]
  by_cases hu : u = t
  · subst hu; rw [withFreq_tr_same]; exact h2
  · rw [withFreq_tr_ne _ hu]; exact h2

theorem HasRate.pair {w w' : World} (hr : Reachable w) {a b c d : Str} {A A' : ℚ} (h : HasRate w a b A) (hp : Paired w w' c d A')
    (hne : ¬((a = c ∧ b = d) ∨ (a = d ∧ b = c))) : HasRate w' a b A := by
  obtain ⟨u, h1, h2⟩ := h
  exact ⟨u, by rw [hp.rest _ _ hne]; exact h1, by rw [hp.old _ (hr.wf.edge _ _ _ h1).1]; exact h2⟩

/-- A lookup that succeeds finds the transition between the two levels. -/
theorem adj_of_found {w : World} (hr : Reachable w) {a b : Str} (ha : Known w a) (hb : Known w b) {t : Nat} (h : transGet a b w = (w, .ok t)) :
    w.g.adj a b = some t := by
  obtain ⟨pa, i, Ji, hi, hJi⟩ := ha
  obtain ⟨pb, j, Jj, hj, hJj⟩ := hb
  have hn := hr.wf.gok.nodup
  rw [transGet_plainKey pa.1 pb.1, levelsGet_plain hn pa hi, levelsGet_plain hn pb hj] at h
  simp only [Prod.mk.injEq, true_and, bind, Except.bind, refHz] at h
  split at h
  · rw [Dict.getE_ok, Graph.get?_edges hr.wf.gok] at h
    split at h
    · rw [hr.wf.gok.symm]; exact h
    · cases h
  · rw [Dict.getE_ok, Graph.get?_edges hr.wf.gok] at h
    split at h
    · exact h
    · cases h

theorem withFreq_known {w w' : World} {t : Nat} {f : ℚ} (h : EFrame (withFreq w t f) w') {n : Str} (hk : Known w n) : Known w' n := by
  obtain ⟨⟨h1, h2⟩, i, J, h3, h4⟩ := hk
  exact known_frame h ⟨⟨h1, h2⟩, i, J, h3, h4⟩

/-- One of the scripts' lines that override a frequency. -/
theorem tuned {w : World} {S : List (Str × Str × ℚ)} (h : Lines w S) {a b : Str} (hab : a ≠ b) (ha : Known w a) (hb : Known w b) {t : Nat}
    (ht : transGet a b w = (w, .ok t)) (hu : Unused S a ∨ Unused S b) {σ : Ord'} (hσ : Shuffles σ) {f : ℚ} (hf : 0 ≤ f) :
    ∃ w', tuneNamed σ a b f w = (w', .ok ()) ∧ Lines w' ((a, b, f) :: S) ∧ EFrame (withFreq w t f) w' ∧ w'.warned = w.warned ∧
      ∀ c d u, Known w c → Known w d → c ≠ a → c ≠ b → d ≠ a → d ≠ b → transGet c d w = (w, .ok u) → transGet c d w' = (w', .ok u) := by
  have hadj := adj_of_found h.reach ha hb ht
  obtain ⟨pa, i, Ji, hi, hJi⟩ := id ha
  obtain ⟨pb, j, Jj, hj, hJj⟩ := id hb
  obtain ⟨w', e1, e2, e3, e4, e5⟩ := h.set hab hi hj hadj hu hσ hf
  refine ⟨w', ?_, e2, e3, e4, ?_⟩
  · unfold tuneNamed
    rw [PyM.bind_ok ht]
    exact e1
  · intro c d u hc hd c1 c2 d1 d2 hcd
    have hadj' := adj_of_found h.reach hc hd hcd
    obtain ⟨pc', k', Jk', hk', -⟩ := withFreq_known e3 hc
    obtain ⟨pd', l', Jl', hl', -⟩ := withFreq_known e3 hd
    obtain ⟨pc, k, Jk, hk, -⟩ := hc
    obtain ⟨pd, l, Jl, hl, -⟩ := hd
    have hk'' := hk'
    have hl'' := hl'
    rw [e3.g] at hk'' hl''
    obtain rfl : k' = k := Option.some.inj (hk''.symm.trans hk)
    obtain rfl : l' = l := Option.some.inj (hl''.symm.trans hl)
    rw [C29_found_partial w' c d k' l' u e2.reach pc' pd' hk' hl' (by rw [e3.g]; exact hadj'), e5 _ _ hk c1 c2, e5 _ _ hl d1 d2,
      show w'.levelNames = w.levelNames by unfold levelNames; rw [e3.g]; rfl]
    exact (C29_found_partial w c d k' l' u h.reach pc pd hk hl hadj').1 hcd

/-- What the scripts get: an atom without set frequencies with the seven levels and the two transitions found by name. -/
structure Ytterbium (w : World) : Prop where
  reach : Reachable w
  unset : ∀ n m t f, ¬SetEdge w n m t f
  unpinned : ∀ n i, w.g.lev n = some i → (w.lv i).fixed = false
  s : Known w nameS
  p : Known w nameP
  d3 : Known w nameD3
  d5 : Known w nameD5
  br : Known w nameBr
  f : Known w nameF
  c : Known w nameC
  ir : ∃ t, transGet nameD3 nameBr w = (w, .ok t)
  uv : ∃ t, transGet nameS nameP w = (w, .ok t)

theorem Ytterbium.lines {w : World} (h : Ytterbium w) : Lines w [] := by
  refine ⟨h.reach, ⟨fun n m t f he => absurd he (h.unset _ _ _ _), fun n i hi => ?_⟩, fun n m f => ?_⟩
  · rw [h.unpinned n i hi]
    simp [h.unset]
  · simp [h.unset]

/-- The part common to the three scripts: the two overridden frequencies, and the new transition of the quadrupole line with its frequency. -/
theorem common {w : World} (h : Ytterbium w) {σ1 σ2 σ3 : Ord'} (h1 : Shuffles σ1) (h2 : Shuffles σ2) (h3 : Shuffles σ3) {f1 f2 f3 : ℚ}
    (p1 : 0 ≤ f1) (p2 : 0 ≤ f2) (p3 : 0 ≤ f3) :
    ∃ w1 w2 w3 w4 t, tuneNamed σ1 nameD3 nameBr f1 w = (w1, .ok ()) ∧ tuneNamed σ2 nameS nameP f2 w1 = (w2, .ok ()) ∧
      pairNamed nameS nameD5 22 w2 = (w3, .ok t) ∧ (∀ σ, addNamed σ nameS nameD5 22 w2 = (w3, .ok t)) ∧
      setFrequency σ3 t f3 w3 = (w4, .ok ()) ∧ Lines w4 [(nameS, nameD5, f3), (nameS, nameP, f2), (nameD3, nameBr, f1)] ∧
      HasRate w4 nameS nameD5 22 ∧ Known w4 nameF ∧ Known w4 nameC := by
  obtain ⟨t1, ht1⟩ := h.ir
  obtain ⟨t2, ht2⟩ := h.uv
  obtain ⟨w1, a1, a2, a3, a4, a5⟩ := tuned h.lines (a := nameD3) (b := nameBr) (by decide) h.d3 h.br ht1 (.inl (by simp [Unused])) h1 p1
  have k1 : ∀ n, Known w n → Known w1 n := fun n hn => withFreq_known a3 hn
  obtain ⟨w2, b1, b2, b3, b4, -⟩ := tuned a2 (a := nameS) (b := nameP) (by decide) (k1 _ h.s) (k1 _ h.p)
    (a5 _ _ _ h.s h.p (by decide) (by decide) (by decide) (by decide) ht2)
    (.inl (by intro p hp; simp only [List.mem_singleton] at hp; subst hp; exact ⟨show nameD3 ≠ nameS by decide, show nameBr ≠ nameS by decide⟩)) h2 p2
  have k2 : ∀ n, Known w n → Known w2 n := fun n hn => withFreq_known b3 (k1 n hn)
  obtain ⟨w3, c1, c2, c3⟩ := paired b2.reach (A := 22) (k2 _ h.s) (k2 _ h.d5)
  have k3 : ∀ n, Known w n → Known w3 n := fun n hn => c3.known n (k2 n hn)
  have hu : Unused [(nameS, nameP, f2), (nameD3, nameBr, f1)] nameD5 := by
    intro p hp
    simp only [List.mem_cons, List.not_mem_nil, or_false] at hp
    rcases hp with rfl | rfl
    · exact ⟨show nameS ≠ nameD5 by decide, show nameP ≠ nameD5 by decide⟩
    · exact ⟨show nameD3 ≠ nameD5 by decide, show nameBr ≠ nameD5 by decide⟩
  have c4 := c3.lines _ b2 hu
  obtain ⟨-, i, -, hi, -⟩ := k3 _ h.s
  obtain ⟨-, j, -, hj, -⟩ := k3 _ h.d5
  obtain ⟨w4, d1, d2, d3, d4, d5⟩ := c4.set (show nameS ≠ nameD5 by decide) hi hj c3.adj (.inr hu) h3 p3
  exact ⟨w1, w2, w3, w4, _, a1, b1, c1, c2, d1, d2, HasRate.set ⟨_, c3.adj, c3.rate⟩ d3, withFreq_known d3 (k3 _ h.f), withFreq_known d3 (k3 _ h.c)⟩

theorem unusedF {f1 f2 f3 : ℚ} {n : Str} (h : n = nameF ∨ n = nameC) :
    Unused [(nameS, nameD5, f3), (nameS, nameP, f2), (nameD3, nameBr, f1)] n := by
  intro p hp
  simp only [List.mem_cons, List.not_mem_nil, or_false] at hp
  rcases h with rfl | rfl <;> rcases hp with rfl | rfl | rfl <;> constructor <;> simp only [] <;> decide

/-- C151 for Yb_II_173.py: the script runs to its end, the three frequencies are met and the two new transitions have their rates. -/
theorem C151_173_partial (w : World) (σ1 σ2 σ3 : Ord') (h : Ytterbium w) (h1 : Shuffles σ1) (h2 : Shuffles σ2) (h3 : Shuffles σ3) :
    ∃ w', yb173 σ1 σ2 σ3 w = (w', .ok ()) ∧ HasLine w' nameD3 nameBr 320570339000000 ∧ HasLine w' nameS nameP 811292506000000 ∧
      HasLine w' nameS nameD5 729476090000000 ∧ HasRate w' nameS nameD5 22 ∧ HasRate w' nameF nameC 50000 := by
  obtain ⟨w1, w2, w3, w4, t, a1, a2, a3, -, a5, a6, a7, a8, a9⟩ := common h h1 h2 h3 (f1 := 320570339000000) (f2 := 811292506000000)
    (f3 := 729476090000000) (by norm_num) (by norm_num) (by norm_num)
  obtain ⟨w5, c1, c2, c3⟩ := paired a6.reach (A := 50000) a8 a9
  have c4 := c3.lines _ a6 (unusedF (.inr rfl))
  refine ⟨w5, ?_, c4.has (by simp), c4.has (by simp), c4.has (by simp), a7.pair a6.reach c3 (by decide), ⟨_, c3.adj, c3.rate⟩⟩
  unfold yb173
  rw [PyM.bind_ok a1, PyM.bind_ok a2, PyM.bind_ok a3, PyM.bind_ok a5, PyM.bind_ok c1]
  rfl

/-- C151 for Yb_II_174.py: the script runs to its end, the four frequencies are met and the two new transitions have their rates. -/
theorem C151_174_partial (w : World) (σ1 σ2 σ3 σ4 : Ord') (h : Ytterbium w) (h1 : Shuffles σ1) (h2 : Shuffles σ2) (h3 : Shuffles σ3)
    (h4 : Shuffles σ4) :
    ∃ w', yb174 σ1 σ2 σ3 σ4 w = (w', .ok ()) ∧ HasLine w' nameD3 nameBr 320571752000000 ∧ HasLine w' nameS nameP 811291801000000 ∧
      HasLine w' nameS nameD5 729475280000000 ∧ HasLine w' nameF nameC 394423900000000 ∧ HasRate w' nameS nameD5 22 ∧
      HasRate w' nameF nameC 50000 := by
  obtain ⟨w1, w2, w3, w4, t, a1, a2, a3, -, a5, a6, a7, a8, a9⟩ := common h h1 h2 h3 (f1 := 320571752000000) (f2 := 811291801000000)
    (f3 := 729475280000000) (by norm_num) (by norm_num) (by norm_num)
  obtain ⟨w5, c1, c2, c3⟩ := paired a6.reach (A := 50000) a8 a9
  have c4 := c3.lines _ a6 (unusedF (.inr rfl))
  obtain ⟨-, i, -, hi, -⟩ := c3.known _ a8
  obtain ⟨-, j, -, hj, -⟩ := c3.known _ a9
  obtain ⟨w6, d1, d2, d3, d4, d5⟩ := c4.set (show nameF ≠ nameC by decide) hi hj c3.adj (.inr (unusedF (.inr rfl))) h4
    (f := 394423900000000) (by norm_num)
  refine ⟨w6, ?_, d2.has (by simp), d2.has (by simp), d2.has (by simp), d2.has (by simp),
    (a7.pair a6.reach c3 (by decide)).set d3, HasRate.set ⟨_, c3.adj, c3.rate⟩ d3⟩
  unfold yb174
  rw [PyM.bind_ok a1, PyM.bind_ok a2, PyM.bind_ok a3, PyM.bind_ok a5, PyM.bind_ok c1, d1]

theorem addTwoNamed_err (σ : Ord') (a b : Str) (A : ℚ) (w : World) : ∃ e, (addTwoNamed σ a b A w).2 = .error e := by
  unfold addTwoNamed
  rcases h1 : levelsGet a w with ⟨w1, r | r⟩
  · rw [PyM.bind_err h1]; exact ⟨_, rfl⟩
  rw [PyM.bind_ok h1]
  rcases h2 : levelsGet b w1 with ⟨w2, s | s⟩
  · rw [PyM.bind_err h2]; exact ⟨_, rfl⟩
  rw [PyM.bind_ok h2]
  cases r <;> cases s <;> exact ⟨_, rfl⟩

/-- C151: two names given separately raise `TypeError` whenever both are found, levels or sublevels, and nothing is added. -/
theorem C151_two (σ : Ord') {a b : Str} (A : ℚ) {w w1 w2 : World} {r s : Ref} (h1 : levelsGet a w = (w1, .ok r)) (h2 : levelsGet b w1 = (w2, .ok s)) :
    addTwoNamed σ a b A w = (w2, .error .TypeError) := by
  unfold addTwoNamed
  rw [PyM.bind_ok h1, PyM.bind_ok h2]
  cases r <;> cases s <;> rfl

theorem bind_errs {α β : Type} {m : PyM α} {k : α → PyM β} (h : ∀ a w, ∃ e, (k a w).2 = .error e) (w : World) :
    ∃ e, ((m >>= k) w).2 = .error e := by
  rcases hm : m w with ⟨w1, r | r⟩
  · rw [PyM.bind_err hm]; exact ⟨_, rfl⟩
  · rw [PyM.bind_ok hm]; exact h _ _

/-- C151 for Yb_II_171.py: it never runs to its end, whatever the atom. -/
theorem C151_171_raises (w : World) (σ1 σ2 σ3 σ4 : Ord') : ∃ e, (yb171 σ1 σ2 σ3 σ4 w).2 = .error e := by
  unfold yb171
  refine bind_errs (fun _ w => bind_errs (fun _ w => bind_errs (fun _ w => bind_errs (fun _ w => ?_) w) w) w) w
  obtain ⟨e, he⟩ := addTwoNamed_err σ4 nameF nameC 50000 w
  exact ⟨e, by rw [PyM.bind_err (Prod.ext rfl he : addTwoNamed σ4 nameF nameC 50000 w = (_, .error e))]⟩

/-- C151 for Yb_II_171.py: with the levels and transitions there, it raises `TypeError` after the three frequencies have been set; the last
transition is not made. -/
theorem C151_171_partial (w : World) (σ1 σ2 σ3 σ4 : Ord') (h : Ytterbium w) (h1 : Shuffles σ1) (h2 : Shuffles σ2) (h3 : Shuffles σ3) :
    ∃ w', yb171 σ1 σ2 σ3 σ4 w = (w', .error .TypeError) ∧ HasLine w' nameD3 nameBr 320567693000000 ∧
      HasLine w' nameS nameP 811294110000000 ∧ HasLine w' nameS nameD5 729476090000000 ∧ HasRate w' nameS nameD5 22 := by
  obtain ⟨w1, w2, w3, w4, t, a1, a2, -, a4, a5, a6, a7, a8, a9⟩ := common h h1 h2 h3 (f1 := 320567693000000) (f2 := 811294110000000)
    (f3 := 729476090000000) (by norm_num) (by norm_num) (by norm_num)
  refine ⟨w4, ?_, a6.has (by simp), a6.has (by simp), a6.has (by simp), a7⟩
  obtain ⟨pf, i, -, hi, -⟩ := a8
  obtain ⟨pc, j, -, hj, -⟩ := a9
  have e : addTwoNamed σ4 nameF nameC 50000 w4 = (w4, .error .TypeError) := by
    unfold addTwoNamed
    rw [PyM.bind_ok (levelsGet_plain a6.reach.wf.gok.nodup pf hi), PyM.bind_ok (levelsGet_plain a6.reach.wf.gok.nodup pc hj)]
    rfl
  unfold yb171
  rw [PyM.bind_ok a1, PyM.bind_ok a2, PyM.bind_ok (a4 σ3), PyM.bind_ok a5, PyM.bind_err e]

/-- The full claim C151: the three scripts run to their ends with their frequencies met. -/
def C151_full : Prop := ∀ (w : World) (σ : Ord'), Ytterbium w → Shuffles σ →
  (∃ w', yb171 σ σ σ σ w = (w', .ok ()) ∧ HasLine w' nameD3 nameBr 320567693000000 ∧ HasLine w' nameS nameP 811294110000000 ∧
    HasLine w' nameS nameD5 729476090000000) ∧
  (∃ w', yb173 σ σ σ w = (w', .ok ()) ∧ HasLine w' nameD3 nameBr 320570339000000 ∧ HasLine w' nameS nameP 811292506000000 ∧
    HasLine w' nameS nameD5 729476090000000) ∧
  (∃ w', yb174 σ σ σ σ w = (w', .ok ()) ∧ HasLine w' nameD3 nameBr 320571752000000 ∧ HasLine w' nameS nameP 811291801000000 ∧
    HasLine w' nameS nameD5 729475280000000 ∧ HasLine w' nameF nameC 394423900000000)

/-- The seven levels, near where the tables have them (in Hz), with the two transitions. -/
def ytterbium : World :=
  let mk (c t : String) (J : ℚ) (E : ℚ) (i : Nat) : List Op :=
    [.newLevel ⟨c.toList, t.toList, some J, none, none, 100, {}⟩ E 0 0 0 0 none, .addLevel i false none]
  runAll (mk "4f14.6s" "2S" (1/2) 0 0 ++ mk "4f13.(2F*).6s2" "2F*" (7/2) 642000000000000 1 ++ mk "4f14.5d" "2D" (3/2) 688000000000000 2 ++
    mk "4f14.5d" "2D" (5/2) 729000000000000 3 ++ mk "4f14.6p" "2P*" (1/2) 811000000000000 4 ++
    mk "4f13.(2F*<7/2>).5d.6s.(3D)" "3[3/2]*" (1/2) 1008000000000000 5 ++ mk "4f13.(2F*<7/2>).5d.6s.(1D)" "1[3/2]*" (3/2) 1036000000000000 6 ++
    [.newTrans 0 4 none .none none, .newTrans 2 5 none .none none]) (emptyAtom 0 0)

theorem known_of {w : World} {n : Str} (i : Nat) (J : ℚ) (h1 : Plain w n) (h2 : w.g.lev n = some i) (h3 : (w.lv i).term.J = some J) : Known w n :=
  ⟨h1, i, J, h2, h3⟩

/-- The hypotheses are met. -/
theorem ytterbium_ok : Ytterbium ytterbium where
  reach := demo_reachable (by decide +kernel)
  unset := by
    have hd : setEdgeList ytterbium = [] := by decide +kernel
    exact fun n m t f h => forall_setEdge (w := ytterbium) (P := fun _ _ _ _ => False) (by rw [hd]; simp) h
  unpinned := fun n i hi =>
    forall_level (w := ytterbium) (X := fun _ => True) (P := fun i => (ytterbium.lv i).fixed = false) (by decide +kernel) ⟨n, trivial, hi⟩
  s := known_of 0 (1/2) (by decide +kernel) (by decide +kernel) (by decide +kernel)
  p := known_of 4 (1/2) (by decide +kernel) (by decide +kernel) (by decide +kernel)
  d3 := known_of 2 (3/2) (by decide +kernel) (by decide +kernel) (by decide +kernel)
  d5 := known_of 3 (5/2) (by decide +kernel) (by decide +kernel) (by decide +kernel)
  br := known_of 5 (1/2) (by decide +kernel) (by decide +kernel) (by decide +kernel)
  f := known_of 1 (7/2) (by decide +kernel) (by decide +kernel) (by decide +kernel)
  c := known_of 6 (3/2) (by decide +kernel) (by decide +kernel) (by decide +kernel)
  ir := ⟨1,
    (C29_found_partial ytterbium nameD3 nameBr 2 5 1 (demo_reachable (by decide +kernel)) (by decide +kernel) (by decide +kernel)
      (by decide +kernel) (by decide +kernel) (by decide +kernel)).2 (by decide +kernel)⟩
  uv := ⟨0,
    (C29_found_partial ytterbium nameS nameP 0 4 0 (demo_reachable (by decide +kernel)) (by decide +kernel) (by decide +kernel)
      (by decide +kernel) (by decide +kernel) (by decide +kernel)).2 (by decide +kernel)⟩

theorem C151_fails : ¬C151_full := by
  intro h
  obtain ⟨⟨w', e, -⟩, -⟩ := h ytterbium idOrd ytterbium_ok idOrd_shuffles
  obtain ⟨e', he⟩ := C151_171_raises ytterbium idOrd idOrd idOrd idOrd
  rw [e] at he
  cases he

/-- The case of C151_two with a sublevel. -/
example : (addTwoNamed idOrd (nameS ++ " F=1/2".toList) nameP 1 ytterbium).2 = .error .TypeError := by
  have h1 : (levelsGet (nameS ++ " F=1/2".toList) ytterbium).2 = .ok (.hyp 0) := by decide +kernel
  have h2 : (levelsGet nameP (levelsGet (nameS ++ " F=1/2".toList) ytterbium).1).2 = .ok (.fine 4) := by decide +kernel
  rw [C151_two idOrd 1 (Prod.ext rfl h1) (Prod.ext rfl h2)]

end AtomTk
