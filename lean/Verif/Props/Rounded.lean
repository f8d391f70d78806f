import Verif.Proofs.Rounded
import Verif.Props.Enforce

/-! # C83, C84: enforcement in floating-point arithmetic

`enforceR rnd` is `enforce_consistency` with every sum and difference rounded by `rnd`; `dbl` is the rounding of Python floats. -/

namespace AtomTk
open Util World

/-! ## C83 -/

/-- C83: whatever the rounding, enforcing a loop-free group with nothing pinned returns normally, pins the levels of all its set
transitions, and reproduces every set frequency up to the rounding of a single operation; other groups do not matter. -/
theorem C83_one_rounding (rnd : ℚ → ℚ) {w : World} (hr : Reachable w) {σ : Ord'} (hσ : Shuffles σ) (trig : Option (Str × Str)) (v : Str)
    (htr : ∀ p, trig = some p → SetConn w v p.1 ∧ ∃ t f, SetEdge w p.1 p.2 t f) (hv : ∃ m t f, SetEdge w v m t f)
    (hun : ∀ i, InX w (SetConn w v) i → (w.lv i).fixed = false) (hl : LoopFree w (SetConn w v)) :
    ∃ w', enforceR rnd σ trig w = (w', .ok ()) ∧ ∀ n m t f, SetConn w v n → SetEdge w n m t f →
      (w'.eHz (w.tr t).upper = rnd (w'.eHz (w.tr t).lower + f) ∨ w'.eHz (w.tr t).lower = rnd (w'.eHz (w.tr t).upper - f)) ∧
      (w'.lv (w.tr t).lower).fixed = true ∧ (w'.lv (w.tr t).upper).fixed = true := by
  obtain ⟨w', h1, h2, h3, h4⟩ := enforceR_group rnd hr.wf hσ trig v
  refine ⟨w', h1, fun n m t f hn he => ?_⟩
  have := h4 htr hv hun hl n m t f hn he
  unfold Rounded at this
  rw [h2.tr] at this
  exact this

/-- C83: in an atom with nothing pinned the enforcement does not warn, whatever the rounding and whether or not there are loops. -/
theorem C83_silent (rnd : ℚ → ℚ) {w : World} (hr : Reachable w) {σ : Ord'} (hσ : Shuffles σ) (trig : Option (Str × Str))
    (hq : ∀ n i, w.g.lev n = some i → (w.lv i).fixed = false) : ∃ w', enforceR rnd σ trig w = (w', .ok ()) ∧ w'.warned = w.warned :=
  enforceR_silent rnd hr.wf hσ trig hq

/-- C83: with a rounding of relative error at most `u` the error of a frequency is at most `u` times the size of one of the two
energies, computed from the other: it does not grow with the size of the group. -/
theorem C83_error {rnd : ℚ → ℚ} {u : ℚ} (hu : ∀ x, |rnd x - x| ≤ u * |x|) {El Eu f : ℚ}
    (h : Eu = rnd (El + f) ∨ El = rnd (Eu - f)) : |(Eu - El) - f| ≤ u * max |El + f| |Eu - f| := by
  have hu0 : 0 ≤ u := by
    have := (abs_nonneg _).trans (hu 1)
    simpa using this
  rcases h with h | h
  · have : Eu - El - f = rnd (El + f) - (El + f) := by rw [← h]; ring
    rw [this]
    exact (hu _).trans (mul_le_mul_of_nonneg_left (le_max_left _ _) hu0)
  · have : Eu - El - f = -(rnd (Eu - f) - (Eu - f)) := by rw [← h]; ring
    rw [this, abs_neg]
    exact (hu _).trans (mul_le_mul_of_nonneg_left (le_max_right _ _) hu0)

/-- A way along set transitions from one level to another: the number of steps, and the set frequencies, added where it goes up and subtracted
where it goes down. -/
inductive SetWay (w : World) (a : Nat) : Nat → ℕ → ℚ → Prop
  | start : SetWay w a a 0 0
  | up {n m : Str} {t : Nat} {f s : ℚ} {k : ℕ} : SetWay w a (w.tr t).lower k s → SetEdge w n m t f → SetWay w a (w.tr t).upper (k + 1) (s + f)
  | down {n m : Str} {t : Nat} {f s : ℚ} {k : ℕ} : SetWay w a (w.tr t).upper k s → SetEdge w n m t f → SetWay w a (w.tr t).lower (k + 1) (s - f)

/-- A way stays in the group in which it begins. -/
theorem SetWay.conn {w : World} (hw : WF w) {v : Str} {a b : Nat} {k : ℕ} {s : ℚ} (h : SetWay w a b k s) (ha : SetConn w v (w.lname a)) :
    SetConn w v (w.lname b) := by
  have edge : ∀ {n m t f}, SetEdge w n m t f →
      SetEdge w (w.lname (w.tr t).lower) (w.lname (w.tr t).upper) t f ∧ SetEdge w (w.lname (w.tr t).upper) (w.lname (w.tr t).lower) t f := by
    intro n m t f he
    obtain ⟨_, _, _, _, h | h, _⟩ := hw.edge _ _ _ he.1
    · obtain ⟨rfl, rfl⟩ := h
      exact ⟨he, (hw.gok.symm _ _).symm.trans he.1, he.2⟩
    · obtain ⟨rfl, rfl⟩ := h
      exact ⟨⟨(hw.gok.symm _ _).symm.trans he.1, he.2⟩, he⟩
  induction h with
  | start => exact ha
  | up _ he ih => exact ih.tail ⟨_, _, (edge he).1⟩
  | down _ he ih => exact ih.tail ⟨_, _, (edge he).2⟩

/-- C83: after the enforcement, along any way over `k` set transitions of the group the set frequencies add up to the difference of the
energies at its ends, up to `k` roundings. -/
theorem C83_path {rnd : ℚ → ℚ} {u : ℚ} (hu : ∀ x, |rnd x - x| ≤ u * |x|) {w : World} (hr : Reachable w) {σ : Ord'} (hσ : Shuffles σ)
    (trig : Option (Str × Str)) (v : Str)
    (htr : ∀ p, trig = some p → SetConn w v p.1 ∧ ∃ t f, SetEdge w p.1 p.2 t f) (hv : ∃ m t f, SetEdge w v m t f)
    (hun : ∀ i, InX w (SetConn w v) i → (w.lv i).fixed = false) (hl : LoopFree w (SetConn w v)) :
    ∃ w', enforceR rnd σ trig w = (w', .ok ()) ∧ ∀ M, (∀ n m t f, SetConn w v n → SetEdge w n m t f →
        |w'.eHz (w.tr t).lower + f| ≤ M ∧ |w'.eHz (w.tr t).upper - f| ≤ M) →
      ∀ a b k s, SetConn w v (w.lname a) → SetWay w a b k s → |(w'.eHz b - w'.eHz a) - s| ≤ k * (u * M) := by
  obtain ⟨w', h1, h2⟩ := C83_one_rounding rnd hr hσ trig v htr hv hun hl
  refine ⟨w', h1, fun M hM a b k s ha hp => ?_⟩
  have hu0 : 0 ≤ u := by
    have := (abs_nonneg _).trans (hu 1)
    simpa using this
  have edge : ∀ {n m t f}, SetConn w v (w.lname (w.tr t).lower) ∨ SetConn w v (w.lname (w.tr t).upper) → SetEdge w n m t f →
      |(w'.eHz (w.tr t).upper - w'.eHz (w.tr t).lower) - f| ≤ u * M := by
    intro n m t f hc he
    have hn : SetConn w v n := by
      have he' : SetEdge w m n t f := ⟨(hr.wf.gok.symm _ _).symm.trans he.1, he.2⟩
      obtain ⟨_, _, _, _, h | h, _⟩ := hr.wf.edge _ _ _ he.1
      · obtain ⟨rfl, rfl⟩ := h
        exact hc.elim id (fun h => h.tail ⟨_, _, he'⟩)
      · obtain ⟨rfl, rfl⟩ := h
        exact hc.elim (fun h => h.tail ⟨_, _, he'⟩) id
    exact (C83_error hu (h2 n m t f hn he).1).trans
      (mul_le_mul_of_nonneg_left (max_le (hM n m t f hn he).1 (hM n m t f hn he).2) hu0)
  induction hp with
  | start => simp
  | @up n m t f s k hp he ih =>
    have h3 := edge (Or.inl (hp.conn hr.wf ha)) he
    rw [abs_le] at ih h3 ⊢
    push_cast
    constructor <;> linarith [ih.1, ih.2, h3.1, h3.2]
  | @down n m t f s k hp he ih =>
    have h3 := edge (Or.inr (hp.conn hr.wf ha)) he
    rw [abs_le] at ih h3 ⊢
    push_cast
    constructor <;> linarith [ih.1, ih.2, h3.1, h3.2]

/-- With exact arithmetic this is `World.enforce`. -/
theorem C83_exact (σ : Ord') (trig : Option (Str × Str)) : enforceR id σ trig = enforce σ trig := enforceR_id σ trig

/-! ### Python floats -/

theorem nearest_error (q : ℚ) : |(nearest q : ℚ) - q| ≤ 1/2 := by
  have h1 := Int.floor_le q
  have h2 := Int.lt_floor_add_one q
  unfold nearest
  simp only
  rw [abs_le]
  split
  · constructor <;> linarith
  · split
    · push_cast; constructor <;> linarith
    · split
      · constructor <;> linarith
      · push_cast; constructor <;> linarith

theorem expo_le {q : ℚ} (hq : q ≠ 0) : (2 : ℚ) ^ (expo q) ≤ |q| := by
  unfold expo
  simp only
  split
  · rename_i h
    have hn : q.num.natAbs ≠ 0 := by simpa using hq
    have h1 : (2 : ℚ) ^ (Nat.log2 q.num.natAbs) ≤ (q.num.natAbs : ℚ) := by exact_mod_cast Nat.log2_self_le hn
    have h2 : (q.den : ℚ) < (2 : ℚ) ^ (Nat.log2 q.den + 1) := by exact_mod_cast Nat.lt_log2_self
    have hd : (0 : ℚ) < q.den := by exact_mod_cast q.pos
    have habs : |q| = (q.num.natAbs : ℚ) / q.den := by
      conv_lhs => rw [← Rat.num_div_den q]
      rw [abs_div, abs_of_pos hd, Nat.cast_natAbs]
      simp
    rw [habs, le_div_iff₀ hd]
    refine le_trans ?_ h1
    have e : (2 : ℚ) ^ ((Nat.log2 q.num.natAbs : Int) - Nat.log2 q.den - 1) * (2 : ℚ) ^ (Nat.log2 q.den + 1) = (2 : ℚ) ^ (Nat.log2 q.num.natAbs) := by
      rw [← zpow_natCast (2 : ℚ) (Nat.log2 q.den + 1), ← zpow_add₀ (by norm_num), ← zpow_natCast]
      congr 1
      push_cast
      ring
    rw [← e]
    exact mul_le_mul_of_nonneg_left h2.le (zpow_nonneg (by norm_num) _)
  · rename_i h
    exact not_lt.1 h

/-- C83: Python floats have relative error at most `2 ^ -53`. -/
theorem C83_dbl (q : ℚ) : |dbl q - q| ≤ (2 : ℚ) ^ (-53 : Int) * |q| := by
  unfold dbl
  split
  · rename_i h; subst h; simp
  · rename_i h
    set s := (2 : ℚ) ^ (expo q - 52) with hs
    have hpos : 0 < s := zpow_pos (by norm_num) _
    have e1 : (nearest (q / s) : ℚ) * s - q = ((nearest (q / s) : ℚ) - q / s) * s := by
      rw [sub_mul, div_mul_cancel₀ _ hpos.ne']
    rw [e1, abs_mul, abs_of_pos hpos]
    refine (mul_le_mul_of_nonneg_right (nearest_error _) hpos.le).trans ?_
    have e2 : 1/2 * s = (2 : ℚ) ^ (-53 : Int) * (2 : ℚ) ^ (expo q) := by
      rw [hs, show expo q - 52 = expo q + (-53 : Int) + 1 by ring, zpow_add₀ (by norm_num), zpow_add₀ (by norm_num)]
      ring
    rw [e2]
    exact mul_le_mul_of_nonneg_left (expo_le h) (zpow_nonneg (by norm_num) _)

/-- `0.1 + 0.2 ≠ 0.3`. -/
example : dbl (dbl (1/10) + dbl (1/5)) ≠ dbl (3/10) := by decide +kernel

/-! ## C84 -/

/-- The full claim: enforcing again, in Python floats, warns about nothing and moves no level of a loop-free atom. -/
def C84_full : Prop := ∀ (w w' w'' : World) (σ : Ord'), Reachable w → Shuffles σ →
  (∀ n i, w.g.lev n = some i → (w.lv i).fixed = false ∧ dbl (w.eHz i) = w.eHz i) →
  (∀ v, LoopFree w (SetConn w v)) → (∀ n m t f, SetEdge w n m t f → dbl f = f ∧ 0 ≤ f) →
  enforceR dbl σ none w = (w', .ok ()) → enforceR dbl σ none w' = (w'', .ok ()) →
  w''.warned = w'.warned ∧ ∀ n i, w.g.lev n = some i → w''.eHz i = w'.eHz i

theorem enfStepR_same (rnd : ℚ → ℚ) {w : World} {l up : Nat} {f : ℚ} (h1 : (w.lv l).fixed = true) (h2 : (w.lv up).fixed = true)
    (h3 : f = |rnd (w.eHz l - w.eHz up)|) (h4 : w.eHz l = rnd (w.eHz up - f)) : enfStepR rnd w l up f = w := by
  unfold enfStepR
  rw [if_neg (fun h => h.2.2 h3), if_pos h2, ← h4]
  have e1 : w.setE l (w.eHz l) = w := by
    unfold setE setLv eHz
    have : upd w.lv l { w.lv l with levelHz := (w.lv l).levelHz } = w.lv := by
      funext k
      by_cases hk : k = l
      · subst hk; simp
      · rw [upd_ne _ _ _ hk]
    rw [this]
  have e2 : ∀ i, (w.lv i).fixed = true → w.setFixed i true = w := by
    intro i hi
    unfold setFixed setLv
    have : upd w.lv i { w.lv i with fixed := true } = w.lv := by
      funext k
      by_cases hk : k = i
      · subst hk; simp [← hi]
      · rw [upd_ne _ _ _ hk]
    rw [this]
  rw [e1, e2 up h2, e2 l h1]

/-- A state in which every set frequency is exactly what the rounded arithmetic gives back. -/
def Settled (rnd : ℚ → ℚ) (w : World) : Prop := ∀ n m t f, SetEdge w n m t f →
  (w.lv (w.tr t).lower).fixed = true ∧ (w.lv (w.tr t).upper).fixed = true ∧
    f = |rnd (w.eHz (w.tr t).lower - w.eHz (w.tr t).upper)| ∧ w.eHz (w.tr t).lower = rnd (w.eHz (w.tr t).upper - f)

theorem enfEdgesR_same (rnd : ℚ → ℚ) {w : World} (hs : Settled rnd w) {out : List (Str × Str)}
    (ho : ∀ e ∈ out, ∃ t f, SetEdge w e.1 e.2 t f) : enfEdgesR rnd out w = (w, .ok ()) := by
  induction out with
  | nil => rfl
  | cons e out ih =>
    obtain ⟨u, v⟩ := e
    obtain ⟨t, f, he⟩ := ho (u, v) (by simp)
    obtain ⟨h1, h2, h3, h4⟩ := hs _ _ _ _ he
    unfold enfEdgesR
    have := enfEdgeR_eq rnd he
    rw [enfStepR_same rnd h1 h2 h3 h4] at this
    rw [PyM.bind_ok this]
    exact ih (fun e h => ho e (by simp [h]))

/-- C84 (what holds): where the arithmetic gives back every set frequency and every lower energy exactly, enforcing again changes
nothing at all.  Missing: that this is so after an enforcement (`C84_fails`, `C84_moves_fails`). -/
theorem C84_settled_partial (rnd : ℚ → ℚ) {w : World} (hr : Reachable w) {σ : Ord'} (hσ : Shuffles σ) (trig : Option (Str × Str))
    (hs : Settled rnd w) : enforceR rnd σ trig w = (w, .ok ()) := by
  obtain ⟨es, hse, hes, cs, hcs, hcomp, hpw, hcov⟩ := set_comps hr.wf hσ
  have heq : enforceR rnd σ trig w = enfCompsR rnd σ es trig cs w := by
    unfold enforceR
    rw [hse, hcs]
  rw [heq]
  clear heq hcs hpw hcov
  induction cs with
  | nil => rfl
  | cons c cs ih =>
    unfold enfCompsR
    obtain ⟨s, is, out, h1, h2, h3, h4, h5, h6⟩ := enfCompR_search rnd hr.wf hes hσ (hcomp c (by simp))
    have ho : ∀ {vis : List Str} {out : List (Str × Str)}, Graph.Grow (subNbrs w.g es) vis out →
        ∀ e ∈ out, ∃ t f, SetEdge w e.1 e.2 t f := by
      intro vis out hg
      induction hg with
      | nil => simp
      | @cons vis p x out q1 q2 q3 q4 ih =>
        intro e hm
        rcases List.mem_cons.1 hm with rfl | hm
        · exact (mem_subNbrs hr.wf hes p x).1 q3
        · exact ih e hm
    rw [enfEdgesR_same rnd hs (ho h4)] at h6
    have ih := ih (fun d hd => hcomp d (by simp [hd]))
    split
    · rw [PyM.bind_ok h6]
      exact ih
    · exact ih

/-- Ground, excited at 3.46e14 Hz and one 1.26e13 Hz above it, with the two frequencies set; all numbers are Python floats. -/
def floatChain : World := demoAtom 0 (dbl 346000234867096) (dbl 358000000000000)
  [(0, 1, dbl 346000234867096), (1, 2, dbl (126428121184661/10))]

theorem floatChain_reachable : Reachable floatChain := by
  unfold floatChain demoAtom
  exact demo_reachable (by decide +kernel)

/-- The order of the levels in the chain. -/
def floatPar (n : Str) : Str := if n = demoName 'b' then demoName 'a' else demoName 'g'

/-- The rank of the levels in the chain. -/
def floatRk (n : Str) : ℕ := if n = demoName 'b' then 2 else if n = demoName 'a' then 1 else 0

theorem floatChain_loopFree (v : Str) : LoopFree floatChain (SetConn floatChain v) :=
  loopFree_of_parent floatPar floatRk (by decide +kernel) _

/-- C84 fails: enforcing the chain again reports a loop of fixed transitions. -/
theorem C84_fails : ¬C84_full := by
  intro h
  have := h floatChain (enforceR dbl idOrd none floatChain).1 (enforceR dbl idOrd none (enforceR dbl idOrd none floatChain).1).1 idOrd
    floatChain_reachable idOrd_shuffles
    (fun n i hi => forall_level (w := floatChain) (X := fun _ => True)
      (P := fun i => (floatChain.lv i).fixed = false ∧ dbl (floatChain.eHz i) = floatChain.eHz i) (by decide +kernel) ⟨n, trivial, hi⟩)
    floatChain_loopFree
    (fun n m t f he => forall_setEdge (w := floatChain) (P := fun _ _ _ f => dbl f = f ∧ 0 ≤ f) (by decide +kernel) he)
    (Prod.ext rfl (by decide +kernel)) (Prod.ext rfl (by decide +kernel))
  have h1 := this.1
  revert h1
  decide +kernel

/-- The claim without the warnings. -/
def C84_moves_full : Prop := ∀ (w w' w'' : World) (σ : Ord'), Reachable w → Shuffles σ →
  (∀ n i, w.g.lev n = some i → (w.lv i).fixed = false ∧ dbl (w.eHz i) = w.eHz i) →
  (∀ v, LoopFree w (SetConn w v)) → (∀ n m t f, SetEdge w n m t f → dbl f = f ∧ 0 ≤ f) →
  enforceR dbl σ none w = (w', .ok ()) → enforceR dbl σ none w' = (w'', .ok ()) → ∀ n i, w.g.lev n = some i → w''.eHz i = w'.eHz i

/-- A lowest level at 0.3 Hz and a transition of 3e14 Hz from it. -/
def floatLow : World := demoAtom (dbl (3/10)) (dbl 300000000000000) (dbl 300000000000000) [(0, 1, dbl 300000000000000)]

theorem floatLow_reachable : Reachable floatLow := by
  unfold floatLow demoAtom
  exact demo_reachable (by decide +kernel)

/-- Also false: enforcing again moves the lowest level, which the first enforcement had left in place, from 0.3 Hz to 0.3125 Hz,
without a warning. -/
theorem C84_moves_fails : ¬C84_moves_full := by
  intro h
  have := h floatLow (enforceR dbl idOrd none floatLow).1 (enforceR dbl idOrd none (enforceR dbl idOrd none floatLow).1).1 idOrd
    floatLow_reachable idOrd_shuffles
    (fun n i hi => forall_level (w := floatLow) (X := fun _ => True)
      (P := fun i => (floatLow.lv i).fixed = false ∧ dbl (floatLow.eHz i) = floatLow.eHz i) (by decide +kernel) ⟨n, trivial, hi⟩)
    (fun v => loopFree_of_parent floatPar floatRk (by decide +kernel) _)
    (fun n m t f he => forall_setEdge (w := floatLow) (P := fun _ _ _ f => dbl f = f ∧ 0 ≤ f) (by decide +kernel) he)
    (Prod.ext rfl (by decide +kernel)) (Prod.ext rfl (by decide +kernel))
    (demoName 'g') 0 (by decide +kernel)
  revert this
  decide +kernel

example : let w1 := (enforceR dbl idOrd none floatLow).1; let w2 := (enforceR dbl idOrd none w1).1
    w1.eHz 0 = dbl (3/10) ∧ w2.eHz 0 = 5/16 ∧ w2.warned = 0 := by decide +kernel

/-- The hypotheses of `C83_one_rounding` hold for the chain. -/
example (rnd : ℚ → ℚ) : ∃ w', enforceR rnd idOrd none floatChain = (w', .ok ()) :=
  (C83_one_rounding rnd floatChain_reachable idOrd_shuffles none (demoName 'g') (by simp)
    ⟨demoName 'a', 0, dbl 346000234867096, by decide +kernel⟩
    (fun i hi => forall_level (w := floatChain) (P := fun i => (floatChain.lv i).fixed = false) (by decide +kernel) hi)
    (floatChain_loopFree _)).imp (fun _ h => h.1)

/-- A way of two steps in the chain. -/
theorem floatChain_way : SetWay floatChain 0 2 2 (0 + dbl 346000234867096 + dbl (126428121184661/10)) := by
  have e0 : (floatChain.tr 0).lower = 0 ∧ (floatChain.tr 0).upper = 1 ∧ (floatChain.tr 1).lower = 1 ∧ (floatChain.tr 1).upper = 2 := by decide +kernel
  have h1 : SetEdge floatChain (demoName 'g') (demoName 'a') 0 (dbl 346000234867096) := by decide +kernel
  have h2 : SetEdge floatChain (demoName 'a') (demoName 'b') 1 (dbl (126428121184661/10)) := by decide +kernel
  have s0 : SetWay floatChain 0 (floatChain.tr 0).lower 0 0 := by rw [e0.1]; exact .start
  have s1 := SetWay.up s0 h1
  rw [show (floatChain.tr 0).upper = (floatChain.tr 1).lower from e0.2.1.trans e0.2.2.1.symm] at s1
  have s2 := SetWay.up s1 h2
  rw [e0.2.2.2] at s2
  exact s2

/-- The hypotheses of `C83_path` hold for the chain: two roundings of at most `M` over its two steps. -/
example : ∃ w', enforceR dbl idOrd none floatChain = (w', .ok ()) ∧ ∀ M, (∀ n m t f, SetConn floatChain (demoName 'g') n →
      SetEdge floatChain n m t f → |w'.eHz (floatChain.tr t).lower + f| ≤ M ∧ |w'.eHz (floatChain.tr t).upper - f| ≤ M) →
    |(w'.eHz 2 - w'.eHz 0) - (0 + dbl 346000234867096 + dbl (126428121184661/10))| ≤ (2 : ℕ) * ((2 : ℚ) ^ (-53 : Int) * M) :=
  (C83_path C83_dbl floatChain_reachable idOrd_shuffles none (demoName 'g') (by simp)
    ⟨demoName 'a', 0, dbl 346000234867096, by decide +kernel⟩
    (fun i hi => forall_level (w := floatChain) (P := fun i => (floatChain.lv i).fixed = false) (by decide +kernel) hi)
    (floatChain_loopFree _)).imp (fun _ h => ⟨h.1, fun M hM => h.2 M hM 0 2 2 _
      (by rw [show floatChain.lname 0 = demoName 'g' by decide +kernel]) floatChain_way⟩)

/-- A settled state: energies and frequencies that are small integers. -/
example : Settled dbl chainDone := fun n m t f he =>
  forall_setEdge (w := chainDone) (P := fun _ _ t f =>
    (chainDone.lv (chainDone.tr t).lower).fixed = true ∧ (chainDone.lv (chainDone.tr t).upper).fixed = true ∧
    f = |dbl (chainDone.eHz (chainDone.tr t).lower - chainDone.eHz (chainDone.tr t).upper)| ∧
    chainDone.eHz (chainDone.tr t).lower = dbl (chainDone.eHz (chainDone.tr t).upper - f)) (by decide +kernel) he

end AtomTk
