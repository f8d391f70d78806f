import Verif.Model.Rates
import Verif.Props.Derived
import Verif.Props.SubTrans
import Verif.Props.LevelKeys

/-!
# C171: linewidths set after construction

What is proved: the lifetime depends on the rates only, in whatever unit they were set; the branching ratios are the shares of the rates as long as the rates
of the transitions down from the level are in one unit; the hyperfine and Zeeman lines computed after the assignment are those of the new rate.  What fails:
with different units the branching ratios are wrong; hyperfine lines computed before the assignment keep the old rate; without a rate the relative strength of
every line is 1.
-/

namespace AtomTk
open Util World Strengths

/-- The rate in Hz. -/
def RateQ.hz (q : RateQ) : ℚ := q.mag * q.unit

theorem ratesQ_ok (w : World) (A : Rates) (rd : RateQ → ℚ) (e : PyErr) (ts : List Nat) (h : ∀ t ∈ ts, (w.tr t).built = true ∧ ∃ q, A t = some q) :
    w.ratesQ A rd e ts = .ok (ts.map (fun t => ((A t).map rd).getD 0)) := by
  induction ts with
  | nil => rfl
  | cons t ts ih =>
    obtain ⟨hb, a, ha⟩ := h t (by simp)
    unfold ratesQ
    rw [if_pos hb, ha, ih (fun t ht => h t (by simp [ht]))]
    simp [ha, bind, Except.bind]

theorem get_then {α : Type} (w : World) (f : World → PyM α) : (PyM.get >>= f) w = f w w := rfl

/-- As long as nothing is assigned, the rates are those of the constructors. -/
theorem ratesQ_built (w : World) (rd : RateQ → ℚ) (h1 : ∀ a, rd ⟨a, 1⟩ = a) (e : PyErr) (ts : List Nat) : w.ratesQ w.builtRates rd e ts = w.rates e ts := by
  induction ts with
  | nil => rfl
  | cons t ts ih =>
    unfold ratesQ rates
    split
    · unfold builtRates
      cases hA : (w.tr t).A with
      | none => rfl
      | some a =>
        simp only [Option.map_some, h1]
        rw [← ih]; rfl
    · rfl

/-- C171: as long as no rate is assigned, the calls are those of C43 and C44. -/
theorem C171_built (w : World) (key : Str) (i : Nat) (hr : Reachable w) (hp : Plain w key) (hl : w.g.lev key = some i) :
    branchingQ w.builtRates key w = branching key w ∧ stateLifetimeQ w.builtRates key w = stateLifetime key w := by
  obtain ⟨d, l, h1, _⟩ := decays hr hp hl
  constructor
  · unfold branchingQ branching
    rw [PyM.bind_ok h1, PyM.bind_ok h1, get_then, get_then]
    simp only [ratesQ_built w RateQ.mag (fun _ => rfl)]
  · have : totalAQ w.builtRates key w = totalA key w := by
      unfold totalAQ totalA
      rw [PyM.bind_ok h1, PyM.bind_ok (levelsGet_plain hr.wf.gok.nodup hp hl), get_then, PyM.bind_ok h1,
        PyM.bind_ok (levelsGet_plain hr.wf.gok.nodup hp hl), get_then]
      simp only [ratesQ_built w (fun q => q.mag * q.unit) (fun a => mul_one a)]
    unfold stateLifetimeQ stateLifetime
    cases h : totalA key w with
    | mk w' x =>
      cases x with
      | error e => rw [PyM.bind_err (this.trans h), PyM.bind_err h]
      | ok tot => rw [PyM.bind_ok (this.trans h), PyM.bind_ok h]

/-- C171: the lifetime of a level depends on the rates only, in whatever unit each was set: infinite exactly when no transition down has a rate other than 0,
otherwise its product with the sum of the rates is 2π. -/
theorem C171_lifetime (w : World) (A : Rates) (key : Str) (i : Nat) (hr : Reachable w) (hp : Plain w key) (hl : w.g.lev key = some i)
    (hA : ∀ n t, Decay w key i n t → ∃ q, A t = some q ∧ 0 ≤ q.hz) :
    ∃ l : Dict Str Nat, l.keys.Nodup ∧ (∀ n t, (n, t) ∈ l ↔ Decay w key i n t) ∧
    ∃ τ, stateLifetimeQ A key w = (w, .ok τ) ∧
      (τ = .inf ↔ ¬∃ n t q, Decay w key i n t ∧ A t = some q ∧ q.hz ≠ 0) ∧
      ∀ x, τ = .sec x → 0 < x ∧ x * (((l.map (fun p => ((A p.2).map RateQ.hz).getD 0)).sum : ℚ) : ℝ) = 2 * Real.pi := by
  obtain ⟨d, l, h1, _, h3, h4, h5⟩ := decays hr hp hl
  have hbuilt : ∀ t ∈ l.map (·.2), (w.tr t).built = true ∧ ∃ q, A t = some q := by
    intro t ht
    obtain ⟨⟨n, t⟩, hm, rfl⟩ := List.mem_map.1 ht
    have := (h5 n t).1 hm
    obtain ⟨a, ha, _⟩ := hA n t this
    exact ⟨(hr.wf.edge _ _ _ this.2.1).2.1, a, ha⟩
  set as := l.map (fun p => ((A p.2).map RateQ.hz).getD 0) with has
  have htot : totalAQ A key w = (w, .ok as.sum) := by
    unfold totalAQ
    rw [PyM.bind_ok h1, PyM.bind_ok (levelsGet_plain hr.wf.gok.nodup hp hl), get_then]
    simp only [h3]
    rw [PyM.bind_ok (show PyM.lift (w.ratesQ A (fun q => q.mag * q.unit) .TypeError (l.map (·.2))) w =
      (w, .ok ((l.map (·.2)).map (fun t => ((A t).map (fun q => q.mag * q.unit)).getD 0))) by unfold PyM.lift; rw [ratesQ_ok w _ _ _ _ hbuilt])]
    rw [List.map_map]; rfl
  have hlife : stateLifetimeQ A key w = (w, .ok (if as.sum = 0 then .inf else .sec (1 / ((as.sum : ℝ) / (2 * Real.pi))))) := by
    unfold stateLifetimeQ
    rw [PyM.bind_ok htot]
    split <;> rfl
  have hnn : ∀ a ∈ as, 0 ≤ a := by
    intro a ha
    obtain ⟨⟨n, t⟩, hm, rfl⟩ := List.mem_map.1 ha
    obtain ⟨a, ha, h0⟩ := hA n t ((h5 n t).1 hm)
    simp only [ha, Option.map_some, Option.getD_some]; exact h0
  have hsum : as.sum = 0 ↔ ¬∃ n t q, Decay w key i n t ∧ A t = some q ∧ q.hz ≠ 0 := by
    constructor
    · rintro h ⟨n, t, a, hd, ha, hne⟩
      have hm : a.hz ∈ as := List.mem_map.2 ⟨(n, t), (h5 _ _).2 hd, by simp [ha]⟩
      have := List.single_le_sum hnn _ hm
      rw [h] at this
      exact hne (le_antisymm this (hnn _ hm))
    · intro h
      apply List.sum_eq_zero
      intro a ha
      obtain ⟨⟨n, t⟩, hm, rfl⟩ := List.mem_map.1 ha
      obtain ⟨a, ha, h0⟩ := hA n t ((h5 n t).1 hm)
      by_contra hne
      exact h ⟨n, t, a, (h5 n t).1 hm, ha, by simpa [ha] using hne⟩
  refine ⟨l, h4, h5, _, hlife, ?_, ?_⟩
  · rw [← hsum]
    by_cases h0 : as.sum = 0 <;> simp [h0]
  · intro x hx
    by_cases h0 : as.sum = 0
    · rw [if_pos h0] at hx; cases hx
    · rw [if_neg h0] at hx
      have hx : 1 / (((as.sum : ℚ) : ℝ) / (2 * Real.pi)) = x := by simpa using hx
      have hpos : (0 : ℝ) < ((as.sum : ℚ) : ℝ) := by
        exact_mod_cast lt_of_le_of_ne (List.sum_nonneg hnn) (Ne.symm h0)
      rw [← hx]
      have := Real.pi_pos
      constructor
      · positivity
      · rw [← has]; field_simp

/-- C171: if the rates of the transitions down from the level are all in one unit, the branching ratios are the shares of the total rate. -/
theorem C171_one_unit_partial (w : World) (A : Rates) (key : Str) (i : Nat) (hr : Reachable w) (hp : Plain w key) (hl : w.g.lev key = some i)
    {u : ℚ} (hu : 0 < u) (hA : ∀ n t, Decay w key i n t → ∃ q, A t = some q ∧ q.unit = u ∧ 0 ≤ q.hz)
    (hne : ∃ n t q, Decay w key i n t ∧ A t = some q ∧ q.hz ≠ 0) :
    ∃ d, branchingQ A key w = (w, .ok d) ∧ d.keys.Nodup ∧ (∀ n, n ∈ d.keys ↔ ∃ t, Decay w key i n t) ∧
      ∃ l : Dict Str Nat, l.keys.Nodup ∧ (∀ n t, (n, t) ∈ l ↔ Decay w key i n t) ∧
        ∀ n t q, Decay w key i n t → A t = some q → d.get? n = some (some (q.hz / (l.map (fun p => ((A p.2).map RateQ.hz).getD 0)).sum)) := by
  obtain ⟨d, l, h1, h2, _, h4, h5⟩ := decays hr hp hl
  have hbuilt : ∀ t ∈ l.map (·.2), (w.tr t).built = true ∧ ∃ q, A t = some q := by
    intro t ht
    obtain ⟨⟨n, t⟩, hm, rfl⟩ := List.mem_map.1 ht
    have := (h5 n t).1 hm
    obtain ⟨a, ha, _⟩ := hA n t this
    exact ⟨(hr.wf.edge _ _ _ this.2.1).2.1, a, ha⟩
  set as := (l.map (·.2)).map (fun t => ((A t).map RateQ.mag).getD 0) with has
  set hs := l.map (fun p => ((A p.2).map RateQ.hz).getD 0) with hhs
  have hsum : hs.sum = u * as.sum := by
    rw [has, List.map_map, ← List.sum_map_mul_left, hhs]
    congr 1
    apply List.map_congr_left
    rintro ⟨n, t⟩ hm
    obtain ⟨q, hq, hqu, _⟩ := hA n t ((h5 n t).1 hm)
    simp [hq, RateQ.hz, hqu, mul_comm]
  have hnn : ∀ a ∈ hs, 0 ≤ a := by
    intro a ha
    obtain ⟨⟨n, t⟩, hm, rfl⟩ := List.mem_map.1 ha
    obtain ⟨a, ha, _, h0⟩ := hA n t ((h5 n t).1 hm)
    simp only [ha, Option.map_some, Option.getD_some]; exact h0
  have hspos : 0 < hs.sum := by
    obtain ⟨n, t, q, hd, hq, h0⟩ := hne
    have hm : q.hz ∈ hs := List.mem_map.2 ⟨(n, t), (h5 _ _).2 hd, by simp [hq]⟩
    exact lt_of_lt_of_le (lt_of_le_of_ne (hnn _ hm) (Ne.symm h0)) (List.single_le_sum hnn _ hm)
  have hapos : as.sum ≠ 0 := by
    rintro h
    rw [hsum, h, mul_zero] at hspos
    exact lt_irrefl _ hspos
  have hb : branchingQ A key w = (w, .ok ((l.map (·.1)).zip (as.map (fun a => ratio a as.sum)))) := by
    unfold branchingQ
    rw [PyM.bind_ok h1, get_then]
    simp only [h2]
    rw [PyM.bind_ok (show PyM.lift (w.ratesQ A RateQ.mag .AttributeError (l.map (·.2))) w = (w, .ok as) by
      unfold PyM.lift; rw [ratesQ_ok w _ _ _ _ hbuilt])]
    rfl
  have hlen : (l.map (·.1)).length = (as.map (fun a => ratio a as.sum)).length := by simp [has]
  have hkeys : Dict.keys ((l.map (·.1)).zip (as.map (fun a => ratio a as.sum))) = l.map (·.1) := map_zip_fst _ _ hlen
  refine ⟨_, hb, by rw [hkeys]; exact h4, ?_, l, h4, h5, ?_⟩
  · intro n
    rw [hkeys]
    constructor
    · intro h
      obtain ⟨⟨n, t⟩, hm, rfl⟩ := List.mem_map.1 h
      exact ⟨t, (h5 _ _).1 hm⟩
    · rintro ⟨t, ht⟩
      exact List.mem_map.2 ⟨(n, t), (h5 _ _).2 ht, rfl⟩
  · intro n t q hd hq
    apply Dict.get?_of_mem (by rw [hkeys]; exact h4)
    have e : as.map (fun a => ratio a as.sum) = l.map (fun p => some (((A p.2).map RateQ.mag).getD 0 / as.sum)) := by
      rw [has, List.map_map, List.map_map]
      apply List.map_congr_left
      intro p _
      show ratio _ _ = _
      unfold ratio
      rw [if_neg hapos]
    rw [e, List.zip_map']
    refine List.mem_map.2 ⟨(n, t), (h5 _ _).2 hd, ?_⟩
    obtain ⟨q', hq', hqu, _⟩ := hA n t hd
    rw [hq] at hq'
    cases hq'
    simp only [hq, Option.map_some, Option.getD_some, Prod.mk.injEq, Option.some.injEq, true_and]
    rw [hsum, RateQ.hz, hqu, mul_comm, mul_div_mul_left _ _ hu.ne']

/-! ## The hyperfine and Zeeman lines -/

/-- The same line with its rate multiplied by `c`. -/
noncomputable def HTr.scale (c : ℚ) (x : HTr) : HTr := { x with A := x.A.map (fun a => (c : ℝ) * a) }

/-- The same line with its rate multiplied by `c`, and that of its parent. -/
noncomputable def ZTr.scale (c : ℚ) (x : ZTr) : ZTr := { x with parent := x.parent.scale c, A := x.A.map (fun a => (c : ℝ) * a) }

theorem dict_set_map {κ α β : Type _} [DecidableEq κ] (g : α → β) (d : Dict κ α) (k : κ) (v : α) :
    Dict.set (d.map (fun p => (p.1, g p.2)) : Dict κ β) k (g v) = (d.set k v).map (fun p => (p.1, g p.2)) := by
  induction d with
  | nil => rfl
  | cons p d ih =>
    simp only [List.map_cons, Dict.set]
    split
    · rfl
    · rw [ih]; rfl

theorem popSubs_map {τ τ' : Type _} (g : τ → τ') {ok : Nat → Nat → Py Bool} {mk : Nat → Nat → Py τ} {mk' : Nat → Nat → Py τ'} {al : τ → Types}
    {al' : τ' → Types} {key : τ → Str × Str} {key' : τ' → Str × Str} (hmk : ∀ a b, mk' a b = (mk a b).map g) (hal : ∀ x, al' (g x) = al x)
    (hkey : ∀ x, key' (g x) = key x) (ps : List (Nat × Nat)) (d : Dict (Str × Str) τ) :
    popSubs ok mk' al' key' ps (d.map (fun p => (p.1, g p.2))) = (popSubs ok mk al key ps d).map (fun d => d.map (fun p => (p.1, g p.2))) := by
  induction ps generalizing d with
  | nil => rfl
  | cons p ps ih =>
    obtain ⟨a, b⟩ := p
    simp only [popSubs, hmk]
    cases ok a b with
    | error e => rfl
    | ok v =>
      cases v with
      | false => exact ih d
      | true =>
        cases mk a b with
        | error e => rfl
        | ok t =>
          show (if (al' (g t)).any = true then popSubs ok mk' al' key' ps (Dict.set (d.map (fun p => (p.1, g p.2))) (key' (g t)) (g t))
            else popSubs ok mk' al' key' ps (d.map (fun p => (p.1, g p.2)))) =
            Except.map _ (if (al t).any = true then popSubs ok mk al key ps (d.set (key t) t) else popSubs ok mk al key ps d)
          rw [hal, hkey]
          split
          · rw [dict_set_map, ih]
          · exact ih d

/-- C171: hyperfine lines computed after the rate has been set: with a rate `c` times as large every line has `c` times the rate, and everything else is
the same. -/
theorem C171_hyperfine (W : Wig) (w : World) (t : Nat) (c a : ℚ) :
    popHTrs W (w.setA t (some (c * a))) t =
      (popHTrs W (w.setA t (some a)) t).map (fun d => d.map (fun p => (p.1, p.2.scale c))) := by
  unfold popHTrs
  have e : ∀ x, ((w.setA t x).tr t).allowed = (w.tr t).allowed ∧ ((w.setA t x).tr t).e1 = (w.tr t).e1 ∧ ((w.setA t x).tr t).e2 = (w.tr t).e2 ∧
      ((w.setA t x).tr t).A = x := by
    intro x; simp [setA, setTr]
  rw [(e _).1, (e _).2.1, (e _).2.2.1, (e _).1, (e _).2.1, (e _).2.2.1]
  refine popSubs_map (HTr.scale c) ?_ ?_ ?_ _ []
  · intro i j
    unfold newHTr
    rw [(e _).2.2.2, (e _).2.2.2, (e _).1, (e _).1]
    have e1 : ∀ x, (w.setA t x).hHz i = w.hHz i := fun _ => rfl
    have e2 : ∀ x, (w.setA t x).hHz j = w.hHz j := fun _ => rfl
    have e3 : ∀ x, (w.setA t x).hf = w.hf := fun _ => rfl
    have e4 : ∀ x, (w.setA t x).I = w.I := fun _ => rfl
    simp only [e1, e2, e3, e4]
    cases w.hHz i with
    | error x => rfl
    | ok ea =>
      cases w.hHz j with
      | error x => rfl
      | ok eb =>
        simp only [bind, Except.bind]
        cases (w.hf i).term.J with
        | none => rfl
        | some J1 =>
          cases (w.hf i).term.F with
          | none => rfl
          | some F1 =>
            cases (w.hf j).term.J with
            | none => rfl
            | some J2 =>
              cases (w.hf j).term.F with
              | none => rfl
              | some F2 =>
                simp only
                cases hFactor W (w.tr t).allowed w.I J1 F1 J2 F2 with
                | error x => rfl
                | ok f =>
                  simp only
                  cases hAllowed W (w.tr t).allowed w.I J1 F1 J2 F2 with
                  | error x => rfl
                  | ok al =>
                    simp only [Except.map, HTr.scale, Option.map_some]
                    push_cast
                    rw [mul_assoc]
  · intro x; rfl
  · intro x; rfl

/-- C171: and the Zeeman lines of such a hyperfine line. -/
theorem C171_zeeman (W : Wig) (w : World) (x : HTr) (c : ℚ) :
    popZTrs W w (x.scale c) = (popZTrs W w x).map (fun d => d.map (fun p => (p.1, p.2.scale c))) := by
  unfold popZTrs
  refine popSubs_map (ZTr.scale c) ?_ ?_ ?_ _ []
  · intro i j
    unfold newZTr
    cases w.zHz i with
    | error x => rfl
    | ok ea =>
      cases w.zHz j with
      | error x => rfl
      | ok eb =>
        simp only [bind, Except.bind]
        cases (w.zl i).term.F with
        | none => rfl
        | some F1 =>
          cases (w.zl i).term.mF with
          | none => rfl
          | some m1 =>
            cases (w.zl j).term.F with
            | none => rfl
            | some F2 =>
              cases (w.zl j).term.mF with
              | none => rfl
              | some m2 =>
                obtain ⟨p, a, b, lo, up, A, rel, al⟩ := x
                simp only [HTr.scale]
                cases A with
                | none =>
                  simp only [Option.map_none]
                  cases zAllowed W al F1 m1 F2 m2 <;> rfl
                | some A =>
                  simp only [Option.map_some]
                  cases zFactor W al F1 m1 F2 m2 with
                  | error x => rfl
                  | ok f =>
                    simp only
                    cases zAllowed W al F1 m1 F2 m2 with
                    | error x => rfl
                    | ok al' =>
                      simp only [Except.map, ZTr.scale, HTr.scale, Option.map_some]
                      rw [mul_assoc]
  · intro x; rfl
  · intro x; rfl

/-- C171: a transition whose subtransitions have been computed keeps them, whatever the rate is set to. -/
theorem C171_stale (W : Wig) (w : World) (t : Nat) (a : Option ℚ) (d : Dict (Str × Str) HTr) (hd : d ≠ []) :
    hSubs W t d (w.setA t a) = (w.setA t a, .ok d) := by
  unfold hSubs
  rw [if_neg (by simpa using hd)]
  rfl

theorem newHTr_none (W : Wig) (w : World) (t i j : Nat) (x : HTr) (h : newHTr W (w.setA t none) t i j = .ok x) : x.A = none ∧ x.rel = 1 := by
  unfold newHTr at h
  have e : ((w.setA t none).tr t).A = none := by simp [setA, setTr]
  rw [e] at h
  revert h
  cases (w.setA t none).hHz i with
  | error x => intro h; cases h
  | ok ea =>
    cases (w.setA t none).hHz j with
    | error x => intro h; cases h
    | ok eb =>
      simp only [bind, Except.bind]
      split
      · cases hAllowed W ((w.setA t none).tr t).allowed (w.setA t none).I _ _ _ _ with
        | error x => intro h; cases h
        | ok al => intro h; cases h; exact ⟨rfl, rfl⟩
      · intro h; cases h

theorem popSubs_all {τ : Type _} {ok : Nat → Nat → Py Bool} {mk : Nat → Nat → Py τ} {al : τ → Types} {key : τ → Str × Str} {P : τ → Prop}
    (hP : ∀ a b x, mk a b = .ok x → P x) (ps : List (Nat × Nat)) (d d' : Dict (Str × Str) τ) (hd : ∀ p ∈ d, P p.2)
    (h : popSubs ok mk al key ps d = .ok d') : ∀ p ∈ d', P p.2 := by
  induction ps generalizing d with
  | nil => cases h; exact hd
  | cons p ps ih =>
    obtain ⟨a, b⟩ := p
    simp only [popSubs, bind, Except.bind] at h
    cases hok : ok a b with
    | error e => rw [hok] at h; cases h
    | ok v =>
      rw [hok] at h
      cases v with
      | false => exact ih d hd h
      | true =>
        cases hmk : mk a b with
        | error e => rw [hmk] at h; cases h
        | ok t =>
          rw [hmk] at h
          simp only [if_true] at h
          split at h
          · refine ih _ ?_ h
            intro p hp
            rcases mem_set_val d _ _ p hp with hp | hp
            · exact hd p hp
            · rw [hp]; exact hP a b t hmk
          · exact ih d hd h

/-- C171: without a rate every hyperfine line has relative strength 1, and no rate. -/
theorem C171_none (W : Wig) (w : World) (t : Nat) (d : Dict (Str × Str) HTr) (h : popHTrs W (w.setA t none) t = .ok d) :
    ∀ x ∈ d.vals, x.A = none ∧ x.rel = 1 := by
  intro x hx
  obtain ⟨p, hp, rfl⟩ := List.mem_map.1 hx
  exact popSubs_all (P := fun x => x.A = none ∧ x.rel = 1) (fun a b x hx => newHTr_none W w t a b x hx) _ [] d (by simp) h p hp

theorem popSubs_map_ok {τ τ' : Type _} (g : τ → τ') {ok : Nat → Nat → Py Bool} {mk : Nat → Nat → Py τ} {mk' : Nat → Nat → Py τ'} {al : τ → Types}
    {al' : τ' → Types} {key : τ → Str × Str} {key' : τ' → Str × Str} (hmk : ∀ a b x, mk a b = .ok x → mk' a b = .ok (g x)) (hal : ∀ x, al' (g x) = al x)
    (hkey : ∀ x, key' (g x) = key x) (ps : List (Nat × Nat)) (d d' : Dict (Str × Str) τ) (h : popSubs ok mk al key ps d = .ok d') :
    popSubs ok mk' al' key' ps (d.map (fun p => (p.1, g p.2))) = .ok (d'.map (fun p => (p.1, g p.2))) := by
  induction ps generalizing d with
  | nil => cases h; rfl
  | cons p ps ih =>
    obtain ⟨a, b⟩ := p
    simp only [popSubs, bind, Except.bind] at h ⊢
    cases hok : ok a b with
    | error e => rw [hok] at h; cases h
    | ok v =>
      rw [hok] at h
      cases v with
      | false => exact ih d h
      | true =>
        cases hm : mk a b with
        | error e => rw [hm] at h; cases h
        | ok t =>
          rw [hm] at h
          simp only [if_true, hmk a b t hm, hal, hkey] at h ⊢
          split at h <;> rename_i hc
          · rw [if_pos hc, dict_set_map]; exact ih _ h
          · rw [if_neg hc]; exact ih d h

/-- The lines a transition gets are computed in the state in which it gets them. -/
theorem hSubs_state {W : Wig} {t : Nat} {w w' : World} {d : Dict (Str × Str) HTr} (h : hSubs W t [] w = (w', .ok d)) : popHTrs W w' t = .ok d := by
  have e : hSubs W t [] = (PyM.get >>= fun w => assertSubs (w.tr t).e1 >>= fun _ => assertSubs (w.tr t).e2 >>= fun _ => PyM.get >>= fun w =>
      PyM.lift (w.popHTrs W t)) := by
    unfold hSubs; rw [if_pos (by rfl)]
  rw [e, get_then] at h
  rcases h1 : assertSubs (w.tr t).e1 w with ⟨w1, e | u⟩
  · rw [PyM.bind_err h1] at h; simp at h
  rw [PyM.bind_ok h1] at h
  rcases h2 : assertSubs (w.tr t).e2 w1 with ⟨w2, e | u⟩
  · rw [PyM.bind_err h2] at h; simp at h
  rw [PyM.bind_ok h2, get_then] at h
  unfold PyM.lift at h
  obtain ⟨rfl, h3⟩ := Prod.mk.inj h
  exact h3

/-- The line without a rate. -/
noncomputable def HTr.bare (x : HTr) : HTr := { x with A := none, rel := 1 }

/-- C171: apart from that they are the lines there are with a rate. -/
theorem C171_bare (W : Wig) (w : World) (t : Nat) (a : ℚ) (d : Dict (Str × Str) HTr) (h : popHTrs W (w.setA t (some a)) t = .ok d) :
    popHTrs W (w.setA t none) t = .ok (d.map (fun p => (p.1, p.2.bare))) := by
  unfold popHTrs at h ⊢
  have e : ∀ x, ((w.setA t x).tr t).allowed = (w.tr t).allowed ∧ ((w.setA t x).tr t).e1 = (w.tr t).e1 ∧ ((w.setA t x).tr t).e2 = (w.tr t).e2 ∧
      ((w.setA t x).tr t).A = x := by
    intro x; simp [setA, setTr]
  rw [(e _).1, (e _).2.1, (e _).2.2.1] at h ⊢
  refine popSubs_map_ok HTr.bare ?_ ?_ ?_ _ [] d h
  · intro i j x
    unfold newHTr
    rw [(e _).2.2.2, (e _).2.2.2, (e _).1, (e _).1]
    have e1 : ∀ x, (w.setA t x).hHz i = w.hHz i := fun _ => rfl
    have e2 : ∀ x, (w.setA t x).hHz j = w.hHz j := fun _ => rfl
    have e3 : ∀ x, (w.setA t x).hf = w.hf := fun _ => rfl
    have e4 : ∀ x, (w.setA t x).I = w.I := fun _ => rfl
    simp only [e1, e2, e3, e4]
    cases w.hHz i with
    | error x => intro h; cases h
    | ok ea =>
      cases w.hHz j with
      | error x => intro h; cases h
      | ok eb =>
        simp only [bind, Except.bind]
        split
        · rename_i J1 F1 J2 F2 _ _ _ _
          cases hFactor W (w.tr t).allowed w.I J1 F1 J2 F2 with
          | error x => intro h; cases h
          | ok f =>
            simp only
            cases hAllowed W (w.tr t).allowed w.I J1 F1 J2 F2 with
            | error x => intro h; cases h
            | ok al => intro h; cases h; rfl
        · intro h; cases h
  · intro x; rfl
  · intro x; rfl

/-! ## Cases -/

/-- A level b above g and a, with rates 1 Hz and 3 Hz. -/
def twoDecays : World := runAll (threeLevels 0 5 9 ++ [.newTrans 0 2 none (.hz 1) none, .newTrans 2 1 none (.hz 3) none]) (emptyAtom 0 0)

theorem twoDecays_reachable : Reachable twoDecays := demo_reachable (by decide +kernel)

/-- Both rates in kHz. -/
example : ∃ d, branchingQ (fun _ => some ⟨2, 1000⟩) (demoName 'b') twoDecays = (twoDecays, .ok d) ∧ d.keys.Nodup ∧
    (∀ n, n ∈ d.keys ↔ ∃ t, Decay twoDecays (demoName 'b') 2 n t) ∧
      ∃ l : Dict Str Nat, l.keys.Nodup ∧ (∀ n t, (n, t) ∈ l ↔ Decay twoDecays (demoName 'b') 2 n t) ∧
        ∀ n t q, Decay twoDecays (demoName 'b') 2 n t → (fun _ => some ⟨2, 1000⟩ : Rates) t = some q → d.get? n =
          some (some (q.hz / (l.map (fun p => (((fun _ => some ⟨2, 1000⟩ : Rates) p.2).map RateQ.hz).getD 0)).sum)) :=
  C171_one_unit_partial twoDecays _ _ 2 twoDecays_reachable (by decide +kernel) (by decide +kernel) (u := 1000) (by norm_num)
    (fun _ _ _ => ⟨⟨2, 1000⟩, rfl, rfl, by norm_num [RateQ.hz]⟩)
    ⟨demoName 'g', 0, ⟨2, 1000⟩, ⟨by decide +kernel, by decide +kernel, by decide +kernel⟩, rfl, by norm_num [RateQ.hz]⟩

/-- One in Hz, one in kHz: the lifetime. -/
example := C171_lifetime twoDecays (upd (fun _ => some ⟨1, 1⟩) 1 (some ⟨1, 1000⟩)) (demoName 'b') 2 twoDecays_reachable (by decide +kernel) (by decide +kernel)
  (fun _ t _ => by
    by_cases h : t = 1
    · exact ⟨⟨1, 1000⟩, by simp [h], by norm_num [RateQ.hz]⟩
    · exact ⟨⟨1, 1⟩, by simp [upd_ne _ _ _ h], by norm_num [RateQ.hz]⟩)

example : branchingQ twoDecays.builtRates (demoName 'b') twoDecays = branching (demoName 'b') twoDecays :=
  (C171_built twoDecays _ 2 twoDecays_reachable (by decide +kernel) (by decide +kernel)).1

example : (branchingQ (upd twoDecays.builtRates 1 (some ⟨7, 1⟩)) (demoName 'b') twoDecays).2 =
    .ok [(demoName 'g', some (1/8)), (demoName 'a', some (7/8))] := by decide +kernel

/-! ## Where it fails -/

/-- The full claim: the branching ratios are the shares of the rates. -/
def C171_full : Prop := ∀ (w : World) (A : Rates) (key : Str) (i : Nat) (d : Dict Str (Option ℚ)), Reachable w → Plain w key → w.g.lev key = some i →
  (∀ n t, Decay w key i n t → ∃ q, A t = some q ∧ 0 < q.hz ∧ 0 < q.unit) → (branchingQ A key w).2 = .ok d →
    ∀ n t n' t' q q' r r', Decay w key i n t → Decay w key i n' t' → A t = some q → A t' = some q' → d.get? n = some (some r) → d.get? n' = some (some r') →
      r * q'.hz = r' * q.hz

/-- C171 fails: with 1000 Hz, assigned as 1 kHz, and 1 Hz the two ratios are 1/2. -/
theorem C171_fails : ¬C171_full := by
  intro h
  have := h twoDecays (upd twoDecays.builtRates 1 (some ⟨1, 1000⟩)) (demoName 'b') 2 [(demoName 'g', some (1/2)), (demoName 'a', some (1/2))]
    twoDecays_reachable (by decide +kernel) (by decide +kernel) ?_ ?_ (demoName 'g') 0 (demoName 'a') 1 ⟨1, 1⟩ ⟨1, 1000⟩ (1/2) (1/2)
    ⟨by decide +kernel, by decide +kernel, by decide +kernel⟩ ⟨by decide +kernel, by decide +kernel, by decide +kernel⟩ (by decide +kernel) (by decide +kernel)
    (by decide +kernel) (by decide +kernel)
  · norm_num [RateQ.hz] at this
  · intro n t ht
    have h1 := (twoDecays_reachable.wf.edge _ _ _ ht.2.1).1
    rw [show twoDecays.ntr = 2 by decide +kernel] at h1
    interval_cases t
    · exact ⟨⟨1, 1⟩, by decide +kernel, by norm_num [RateQ.hz], by norm_num⟩
    · exact ⟨⟨1, 1000⟩, by decide +kernel, by norm_num [RateQ.hz], by norm_num⟩
  · decide +kernel

/-- The claim that the hyperfine lines of a transition are those of its rate, whenever it was set. -/
def C171_lines_full : Prop := ∀ (W : Wig) (w w' : World) (t : Nat) (d d' : Dict (Str × Str) HTr) (a : Option ℚ), W.Good → Reachable w →
  hSubs W t [] w = (w', .ok d) → popHTrs W (w'.setA t a) t = .ok d' → hSubs W t d (w'.setA t a) = (w'.setA t a, .ok d')

/-- C171: they are not: a line of `dAtom`, whose rate is 1 Hz, keeps its rate when that of the transition is deleted. -/
theorem C171_lines_fails : ¬C171_lines_full := by
  intro h
  obtain ⟨w', d, h1, h2⟩ := C32_complete_partial exactWig_good dAtom_reachable dAtom_ready dAtom_separated
  obtain ⟨a, b, -, -, hx⟩ := dAtom_pair h1 (F := 2) (F' := 3) (by decide +kernel) (by decide +kernel) dAtom_coupled
  have hne : d ≠ [] := by rintro rfl; cases hx
  have hA : (w'.tr 0).A = some 1 := by
    obtain ⟨w2, d2, g1, g2, -⟩ := hSubs_spec exactWig_good dAtom_reachable.subInv dAtom_ready
    rw [h1] at g1
    simp only [Prod.mk.injEq, Except.ok.injEq] at g1
    obtain ⟨rfl, -⟩ := g1
    rw [g2.tr]
    decide +kernel
  have hpop : popHTrs exactWig (w'.setA 0 (some 1)) 0 = .ok d := by
    have : w'.setA 0 (some 1) = w' := by
      unfold setA setTr
      rw [← hA]
      show { w' with tr := upd w'.tr 0 (w'.tr 0) } = w'
      have : upd w'.tr 0 (w'.tr 0) = w'.tr := by
        funext i
        by_cases h : i = 0
        · rw [h, upd_same]
        · rw [upd_ne _ _ _ h]
      rw [this]
    rw [this]
    exact hSubs_state h1
  have hp := C171_bare _ _ _ _ _ hpop
  have h3 := h exactWig dAtom w' 0 d _ none exactWig_good dAtom_reachable h1 hp
  rw [C171_stale _ _ _ _ _ hne] at h3
  have h4 : d = d.map (fun p => (p.1, p.2.bare)) := by simpa using h3
  rw [← h4] at hp
  have := (C171_none _ _ _ _ hp _ (List.mem_map.2 ⟨_, mem_of_get? hx, rfl⟩)).1
  simp [mkHTr, hA] at this

end AtomTk
