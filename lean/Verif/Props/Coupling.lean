import Verif.Proofs.SubStrength
import Verif.Props.Strengths
import Verif.Props.Util
import Verif.Spec.Nine
import Verif.Props.Parse
import Verif.Props.Term
import Verif.Model.Coupling

/-! # C90-C94: Landé factors of mixed and coupled levels, LS composition (util.py:74-109, atom.py:333-360) -/

namespace AtomTk
open Util Strengths

/-! ## C90 -/

/-- The Landé factor of an LS term, with the electron's g factor reduced by one as in the code. -/
def specLande (J L S : ℚ) : ℚ := 1 + 10023 / 10000 * (J * (J + 1) + S * (S + 1) - L * (L + 1)) / (2 * J * (J + 1))

/-- An LS term with these numbers. -/
structure IsLS (t : Term) (L S J : ℚ) : Prop where
  coupling : t.coupling = .LS
  l : t.qn.l = some L
  s : t.qn.s = some S
  j : t.J = some J
  pos : 0 < J

/-- C90 in full: the components' Landé factors, weighted with their shares. -/
def C90_full : Prop := ∀ (W : Wig) (sign : ℚ → ℝ) (ts : List Term) (L S J : Term → ℚ), ts ≠ [] → (∀ t ∈ ts, IsLS t (L t) (S t) (J t)) →
  gjOf W sign (MultiTerm.mk' ts) = .ok (some (((ts.map (fun t => t.percentage / 100 * specLande (J t) (L t) (S t))).sum : ℚ) : ℝ))

theorem landeSum_one {J : ℚ} (h : 0 < J) (l s : ℚ) : landeSum J [(l, s, 1)] = some ((specLande J l s : ℚ) : ℝ) := by
  have hne : ¬2 * J * (J + 1) = 0 := by positivity
  simp [landeSum, landeOne, hne, specLande]

theorem gjLoop_ls (W : Wig) (sign : ℚ → ℝ) (lead : Term) (l s : ℚ) (hl : lead.qn.l = some l) (hs : lead.qn.s = some s)
    (J : Term → ℚ) (d : List (ℚ × Term)) (h : ∀ p ∈ d, p.2.coupling = .LS ∧ p.2.J = some (J p.2) ∧ 0 < J p.2) (a : ℚ) :
    gjLoop W sign lead d (some (a : ℝ)) = .ok (some (((a + (d.map (fun p => p.1 * specLande (J p.2) l s)).sum : ℚ) : ℝ))) := by
  induction d generalizing a with
  | nil => simp [gjLoop]
  | cons p d ih =>
    obtain ⟨h1, h2, h3⟩ := h p (by simp)
    obtain ⟨pct, t⟩ := p
    have e : gjTriples W sign lead t.coupling = .ok (some [(l, s, 1)]) := by rw [h1]; simp [gjTriples, hl, hs]
    unfold gjLoop
    rw [e, h2]
    show gjLoop W sign lead d (do
        let a ← some (a : ℝ)
        let v ← landeSum (J t) [(l, s, 1)]
        some (a + (pct : ℝ) * v)) = _
    rw [landeSum_one h3]
    show gjLoop W sign lead d (some ((a : ℝ) + (pct : ℝ) * ((specLande (J t) l s : ℚ) : ℝ))) = _
    rw [show (a : ℝ) + (pct : ℝ) * ((specLande (J t) l s : ℚ) : ℝ) = ((a + pct * specLande (J t) l s : ℚ) : ℝ) by push_cast; ring]
    rw [ih (fun q hq => h q (by simp [hq]))]
    simp only [List.map_cons, List.sum_cons]
    rw [add_assoc]

theorem set_absent {κ α : Type _} [DecidableEq κ] (d : Dict κ α) (k : κ) (v : α) (h : k ∉ d.map Prod.fst) : d.set k v = d ++ [(k, v)] := by
  induction d with
  | nil => rfl
  | cons p d ih =>
    simp only [List.map_cons, List.mem_cons, not_or] at h
    unfold Dict.set
    rw [if_neg (fun e => h.1 e.symm), ih h.2]
    rfl

theorem ofList_nodup {κ α : Type _} [DecidableEq κ] (l : List (κ × α)) (h : (l.map Prod.fst).Nodup) : Dict.ofList l = l := by
  have : ∀ (l d : List (κ × α)), ((d ++ l).map Prod.fst).Nodup → l.foldl (fun d p => Dict.set d p.1 p.2) d = d ++ l := by
    intro l
    induction l with
    | nil => simp
    | cons p l ih =>
      intro d hd
      have hp : p.1 ∉ d.map Prod.fst := by
        rw [List.map_append, List.nodup_append] at hd
        intro hm
        exact hd.2.2 _ hm _ (by simp) rfl
      simp only [List.foldl_cons]
      rw [set_absent d p.1 p.2 hp, ih _ (by simpa using hd)]
      simp
  exact this l [] (by simpa using h)

/-- C90 (what holds): components with different percentages each contribute their percentage times a Landé factor with their
own J, but with L and S of the leading component.  Missing for the full property: the components' own L and S, the division by
100, and components with equal percentages (`C90_equal`). -/
theorem C90_lead_partial (W : Wig) (sign : ℚ → ℝ) (ts : List Term) (L S J : Term → ℚ) (h : ∀ t ∈ ts, IsLS t (L t) (S t) (J t))
    (hd : (ts.map Term.percentage).Nodup) (lead : Term) (hlead : lead ∈ ts) (hmax : ∀ t ∈ ts, t.percentage ≤ lead.percentage) :
    gjOf W sign (MultiTerm.mk' ts) =
      .ok (some (((ts.map (fun t => t.percentage * specLande (J t) (L lead) (S lead))).sum : ℚ) : ℝ)) := by
  obtain ⟨hperm, hsort, _, hh, _⟩ := C12_multiterm ts
  obtain ⟨t0, ht0, hm0, _, hhead⟩ := hh ℚ Term.percentage (List.ne_nil_of_mem hlead)
  have ht : t0 = lead := by
    have hp : t0.percentage = lead.percentage := le_antisymm (hmax _ ht0) (hm0 _ hlead)
    exact List.inj_on_of_nodup_map hd ht0 hlead hp
  subst ht
  have hkeys : (((MultiTerm.mk' ts).terms.map (fun t => (t.percentage, t))).map Prod.fst).Nodup := by
    rw [List.map_map]
    exact ((hperm.map Term.percentage).nodup_iff).2 hd
  have hdict : (MultiTerm.mk' ts).termsDict = (MultiTerm.mk' ts).terms.map (fun t => (t.percentage, t)) := ofList_nodup _ hkeys
  obtain ⟨hc, hl, hs, _, _⟩ := h t0 hlead
  unfold gjOf
  cases hm : (MultiTerm.mk' ts).terms with
  | nil => rw [hm] at hhead; cases hhead
  | cons u r =>
    rw [hm] at hhead
    cases hhead
    simp only
    rw [hdict]
    have := gjLoop_ls W sign t0 (L t0) (S t0) hl hs J ((MultiTerm.mk' ts).terms.map (fun t => (t.percentage, t))) (by
      intro p hp
      obtain ⟨t, ht, rfl⟩ := List.mem_map.1 hp
      have := h t (hperm.mem_iff.1 ht)
      exact ⟨this.coupling, this.j, this.pos⟩) 0
    rw [show ((0 : ℚ) : ℝ) = 0 by norm_num] at this
    rw [this, zero_add, List.map_map]
    congr 3
    exact (hperm.map _).sum_eq

/-- The rational loop of `Model/Level` gives the same number. -/
theorem compGJ_ls (conv : Coupling → Term → List (ℚ × ℚ × ℚ)) (lead : Term) (l s : ℚ) (hl : lead.qn.l = some l)
    (hs : lead.qn.s = some s) (J : Term → ℚ) (d : List (ℚ × Term))
    (h : ∀ p ∈ d, p.2.coupling = .LS ∧ p.2.J = some (J p.2) ∧ 0 < J p.2) (a : ℚ) :
    compGJ conv lead d a = .ok (a + (d.map (fun p => p.1 * specLande (J p.2) l s)).sum) := by
  induction d generalizing a with
  | nil => simp [compGJ]
  | cons p d ih =>
    obtain ⟨h1, h2, h3⟩ := h p (by simp)
    obtain ⟨pct, t⟩ := p
    have hne : ¬2 * J t * (J t + 1) = 0 := by
      have : 0 < J t := h3
      positivity
    simp only at h1 h2
    simp only [compGJ, h1, h2, hl, hs, gjSum, gjPart, pyDiv, if_neg hne, bind, Except.bind]
    rw [ih (fun q hq => h q (by simp [hq]))]
    simp only [List.map_cons, List.sum_cons]
    congr 1
    rw [← add_assoc]
    congr 2
    simp [specLande]

/-- C90: the two models of `compute_gJ` agree on levels all of whose components are LS coupled, and both give the percentages
of `termsDict` times a Landé factor with the component's J and the leading component's L and S. -/
theorem C90_same (W : Wig) (sign : ℚ → ℝ) (conv : Coupling → Term → List (ℚ × ℚ × ℚ)) (m : MultiTerm) (lead : Term) (L S : ℚ)
    (J : Term → ℚ) (hlead : m.terms.head? = some lead) (hl : lead.qn.l = some L) (hs : lead.qn.s = some S)
    (h : ∀ p ∈ m.termsDict, p.2.coupling = .LS ∧ p.2.J = some (J p.2) ∧ 0 < J p.2) :
    multiGJ conv m = .ok ((m.termsDict.map (fun p => p.1 * specLande (J p.2) L S)).sum) ∧
    gjOf W sign m = .ok (some ((((m.termsDict.map (fun p => p.1 * specLande (J p.2) L S)).sum : ℚ) : ℝ))) := by
  cases hm : m.terms with
  | nil => rw [hm] at hlead; cases hlead
  | cons u r =>
    rw [hm] at hlead
    cases hlead
    unfold multiGJ gjOf
    rw [hm]
    refine ⟨?_, ?_⟩
    · have := compGJ_ls conv lead L S hl hs J _ h 0
      rw [zero_add] at this
      exact this
    · have := gjLoop_ls W sign lead L S hl hs J _ h 0
      rw [show ((0 : ℚ) : ℝ) = 0 by norm_num, zero_add] at this
      exact this

/-- The sum over the LS components of a conversion. -/
theorem gjSum_lande {J : ℚ} (h0 : 0 < J) (l : List (ℚ × ℚ × ℚ)) :
    gjSum J l = .ok ((l.map (fun x => x.2.2 * specLande J x.1 x.2.1)).sum) := by
  have hne : ¬2 * J * (J + 1) = 0 := by positivity
  induction l with
  | nil => rfl
  | cons x l ih =>
    obtain ⟨a, b, c⟩ := x
    simp only [gjSum, gjPart, pyDiv, if_neg hne, bind, Except.bind, ih, List.map_cons, List.sum_cons, specLande]

/-- C90: a component in JJ, JK or LK coupling counts with the weights of its conversion: its percentage times the weighted sum of the Landé factors
of the LS components. -/
theorem C90_converted (conv : Coupling → Term → List (ℚ × ℚ × ℚ)) (t : Term) (J : ℚ) (h1 : t.coupling ≠ .LS) (h2 : t.coupling ≠ .unknown)
    (hJ : t.J = some J) (h0 : 0 < J) :
    multiGJ conv (MultiTerm.mk' [t]) =
      .ok (t.percentage * ((conv t.coupling t).map (fun x => x.2.2 * specLande J x.1 x.2.1)).sum) := by
  have hd : (MultiTerm.mk' [t]).termsDict = [(t.percentage, t)] := rfl
  have ht : (MultiTerm.mk' [t]).terms = [t] := rfl
  simp only [multiGJ, ht, hd, compGJ, hJ]
  cases hc : t.coupling with
  | LS => exact absurd hc h1
  | unknown => exact absurd hc h2
  | _ => simp only [gjSum_lande h0, bind, Except.bind, zero_add]

example : multiGJ (fun _ _ => [(1, 1/2, 1/4), (0, 1/2, 3/4)]) (MultiTerm.mk' [{ exTerm with term := "3/2[5/2]".toList }]) =
    .ok (100 * (1/4 * specLande (1/2) 1 (1/2) + 3/4 * specLande (1/2) 0 (1/2))) := by
  rw [C90_converted _ _ (1/2) (by decide) (by decide) rfl (by norm_num)]
  simp only [List.map_cons, List.map_nil, List.sum_cons, List.sum_nil, add_zero]
  rfl

/-- Of two components with the same percentage only the second counts. -/
theorem C90_equal (W : Wig) (sign : ℚ → ℝ) (t u : Term) (Lt St Jt Lu Su Ju : ℚ) (ht : IsLS t Lt St Jt) (hu : IsLS u Lu Su Ju)
    (hp : t.percentage = u.percentage) :
    gjOf W sign (MultiTerm.mk' [t, u]) = .ok (some ((u.percentage * specLande Ju Lt St : ℚ) : ℝ)) := by
  have h1 : (MultiTerm.mk' [t, u]).terms = [t, u] := by
    simp [MultiTerm.mk', pySorted, insSorted, hp]
  have h2 : (MultiTerm.mk' [t, u]).termsDict = [(u.percentage, u)] := by
    unfold MultiTerm.termsDict
    rw [h1]
    simp [Dict.ofList, Dict.set, hp]
  unfold gjOf
  rw [h1, h2]
  simp only
  have := gjLoop_ls W sign t Lt St ht.l ht.s (fun _ => Ju) [(u.percentage, u)] (by
    intro p hp
    simp only [List.mem_singleton] at hp
    subst hp
    exact ⟨hu.coupling, hu.j, hu.pos⟩) 0
  rw [show ((0 : ℚ) : ℝ) = 0 by norm_num] at this
  rw [this]
  simp

/-- A component of unknown coupling after LS components makes the result zero. -/
theorem C90_unknown (W : Wig) (sign : ℚ → ℝ) (t u : Term) (L S J : ℚ) (ht : IsLS t L S J) (hu : u.coupling = .unknown)
    (hp : u.percentage < t.percentage) : gjOf W sign (MultiTerm.mk' [t, u]) = .ok (some 0) := by
  have h1 : (MultiTerm.mk' [t, u]).terms = [t, u] := by
    simp [MultiTerm.mk', pySorted, insSorted, hp.le]
  have h2 : (MultiTerm.mk' [t, u]).termsDict = [(t.percentage, t), (u.percentage, u)] := by
    unfold MultiTerm.termsDict
    rw [h1]
    simp [Dict.ofList, Dict.set, hp.ne']
  unfold gjOf
  rw [h1, h2]
  simp only
  unfold gjLoop
  have e : gjTriples W sign t t.coupling = .ok (some [(L, S, 1)]) := by rw [ht.coupling]; simp [gjTriples, ht.l, ht.s]
  rw [e, ht.j]
  simp only [bind, Except.bind]
  unfold gjLoop
  rw [hu]
  simp [gjTriples, bind, Except.bind]

/-- A level of J = 0 has no Landé factor: not a number. -/
theorem C90_zero (W : Wig) (sign : ℚ → ℝ) (t : Term) (L S : ℚ) (hc : t.coupling = .LS) (hl : t.qn.l = some L) (hs : t.qn.s = some S)
    (hJ : t.J = some 0) : gjOf W sign (MultiTerm.mk' [t]) = .ok none := by
  have h1 : (MultiTerm.mk' [t]).terms = [t] := rfl
  have h2 : (MultiTerm.mk' [t]).termsDict = [(t.percentage, t)] := rfl
  unfold gjOf
  rw [h1, h2]
  simp only
  unfold gjLoop
  have e : gjTriples W sign t t.coupling = .ok (some [(L, S, 1)]) := by rw [hc]; simp [gjTriples, hl, hs]
  rw [e, hJ]
  simp [bind, Except.bind, gjLoop, landeSum, landeOne]

/-- Three quarters 3P1, one quarter 1P1. -/
def mixA : Term := ⟨"4f13.5d".toList, "3P".toList, some 1, none, none, 75, { l := some 1, s := some 1 }⟩
/-- See `mixA`. -/
def mixB : Term := ⟨"4f13.5d".toList, "1P".toList, some 1, none, none, 25, { l := some 1, s := some 0 }⟩

theorem mixA_ls : IsLS mixA 1 1 1 := ⟨by decide, rfl, rfl, rfl, by norm_num⟩
theorem mixB_ls : IsLS mixB 1 0 1 := ⟨by decide, rfl, rfl, rfl, by norm_num⟩

example : ([mixA, mixB].map Term.percentage).Nodup ∧ mixA ∈ [mixA, mixB] ∧ (∀ t ∈ [mixA, mixB], t.percentage ≤ mixA.percentage) ∧
    Term.mk' mixA.conf mixA.term (.num 1) .none .none 75 = .ok mixA := by decide +kernel

example : IsLS mixA 1 1 1 ∧ IsLS { mixB with percentage := 75 } 1 0 1 ∧ mixA.percentage = { mixB with percentage := 75 }.percentage :=
  ⟨mixA_ls, ⟨by decide, rfl, rfl, rfl, by norm_num⟩, rfl⟩

example : ({ mixB with term := "".toList } : Term).coupling = .unknown ∧ ({ mixB with term := "".toList } : Term).percentage < mixA.percentage := by
  decide +kernel

example : (MultiTerm.mk' [mixA, mixB]).terms.head? = some mixA ∧
    (∀ p ∈ (MultiTerm.mk' [mixA, mixB]).termsDict, p.2.coupling = .LS ∧ p.2.J = some 1 ∧ (0 : ℚ) < 1) ∧
    (MultiTerm.mk' [mixA, mixB]).termsDict.length = 2 := by decide +kernel

/-- C90 fails: of 75% 3P1 and 25% 1P1 the Landé factor comes out as that of 100% 3P1, a hundred times too large. -/
theorem C90_fails : ¬C90_full := by
  intro h
  have hL : ∀ t ∈ [mixA, mixB], IsLS t 1 (if t = mixA then 1 else 0) 1 := by
    intro t ht
    simp only [List.mem_cons, List.not_mem_nil, or_false] at ht
    rcases ht with rfl | rfl
    · rw [if_pos rfl]; exact mixA_ls
    · rw [if_neg (by decide +kernel)]; exact mixB_ls
  have h1 := h exactWig (fun _ => 1) [mixA, mixB] (fun _ => 1) (fun t => if t = mixA then 1 else 0) (fun _ => 1) (by simp) hL
  have h2 := C90_lead_partial exactWig (fun _ => 1) [mixA, mixB] (fun _ => 1) (fun t => if t = mixA then 1 else 0) (fun _ => 1) hL
    (by decide +kernel) mixA (by simp) (by decide +kernel)
  rw [h1] at h2
  have h3 := Option.some.inj (Except.ok.inj h2)
  have h4 : (([mixA, mixB].map (fun t => t.percentage / 100 * specLande 1 1 (if t = mixA then 1 else 0))).sum : ℚ) =
    ([mixA, mixB].map (fun t => t.percentage * specLande 1 1 (if mixA = mixA then 1 else 0))).sum := by exact_mod_cast h3
  revert h4
  decide +kernel

/-! ## C91 -/

/-- The text of an LS term without parity: `{2S+1}{L}`. -/
def IsLabel (lab : Str) (L S : ℚ) : Prop := ∃ (l n : ℕ) (X : Char), L = l ∧ 2 * S + 1 = n ∧ specLetters[l]? = some X ∧ lab = natStr n ++ [X]

/-- A list names, once each, the LS terms among `PL × PS` whose amplitude `A L S` is not zero, with `rd (100 A²)`. -/
structure Composition (rd : ℝ → ℝ) (PL PS : ℚ → Prop) (A : ℚ → ℚ → ℝ) (xs : List (Str × ℝ)) : Prop where
  once : (xs.map Prod.fst).Nodup
  mem : ∀ lab v, (lab, v) ∈ xs ↔ ∃ L S, PL L ∧ PS S ∧ A L S ≠ 0 ∧ IsLabel lab L S ∧ v = rd (100 * A L S ^ 2)

/-- The labels are terms: they are classified LS and parse to their L and S. -/
theorem C91_label {lab : Str} {L S : ℚ} (h : IsLabel lab L S) (conf : Str) :
    getTermCoupling lab = .LS ∧ getQuantumNums conf lab = .ok { l := some L, s := some S } := by
  obtain ⟨l, n, X, rfl, hn, hX, rfl⟩ := h
  have e : S = ((n : ℚ) - 1) / 2 := by linarith
  subst e
  have h1 : getTermCoupling (natStr n ++ [X]) = .LS := coupling_LS n X false (letter_isUp hX)
  have h2 : Regex.findall 2 reLS (natStr n ++ [X]) = [[natStr n, [X]]] := findall_LS n X false (letter_isUp hX)
  refine ⟨h1, ?_⟩
  rw [getQuantumNums, h1]
  simp [parseLS, h2, spinOf_natStr, letNum_letter hX, bind, Except.bind]

example : IsLabel "4F".toList 3 (3/2) := ⟨3, 4, 'F', by norm_num, by norm_num, by decide, by decide⟩

theorem label_unique {lab : Str} {L S L' S' : ℚ} (h : IsLabel lab L S) (h' : IsLabel lab L' S') : L = L' ∧ S = S' := by
  have h1 := (C91_label h []).2
  rw [(C91_label h' []).2] at h1
  have := Except.ok.inj h1
  simp only [QNums.mk.injEq, Option.some.injEq] at this
  exact ⟨this.2.2.2.2.2.2.1.symm, this.2.2.2.2.2.2.2.1.symm⟩

/-- A comprehension whose values are known. -/
theorem percs_val (f : ℚ → ℚ → Py ℝ) (A : ℚ → ℚ → ℝ) (l : List (ℚ × ℚ)) (h : ∀ p ∈ l, f p.1 p.2 = .ok (A p.1 p.2)) :
    percs f l = .ok (l.map (fun p => A p.1 p.2)) := by
  induction l with
  | nil => rfl
  | cons p l ih =>
    unfold percs
    rw [h p (by simp), ih (fun q hq => h q (by simp [hq]))]
    rfl

theorem zip_zip_map {α β γ : Type _} (a : List α) (b : List β) (g : α × β → γ) :
    a.zip (b.zip ((a.zip b).map g)) = (a.zip b).map (fun p => (p.1, p.2, g p)) := by
  induction a generalizing b with
  | nil => rfl
  | cons x a ih =>
    cases b with
    | nil => rfl
    | cons y b => simp [ih b]

/-- The pairs of the grid. -/
def gridOf (ls ss : List ℚ) : List (ℚ × ℚ) := ls.flatMap (fun l => ss.map (fun s => (l, s)))

theorem onGrid_columns (f : ℚ → ℚ → Py ℝ) (A : ℚ → ℚ → ℝ) (ls ss : List ℚ) (h : ∀ l ∈ ls, ∀ s ∈ ss, f l s = .ok (A l s)) :
    ∃ r, onGrid f ls ss = .ok r ∧ columns r = (gridOf ls ss).map (fun p => (p.1, p.2, A p.1 p.2)) := by
  have hg := zip_grid ls ss
  have hp := percs_val f A ((npRepeat ls ss.length).zip (npTile ss ls.length)) (by
    rw [hg]
    intro p hp
    simp only [List.mem_flatMap, List.mem_map] at hp
    obtain ⟨l, hl, s, hs, rfl⟩ := hp
    exact h l hl s hs)
  refine ⟨(npRepeat ls ss.length, npTile ss ls.length, ((npRepeat ls ss.length).zip (npTile ss ls.length)).map (fun p => A p.1 p.2)), ?_, ?_⟩
  · unfold onGrid
    simp only [hp, bind, Except.bind]
  · unfold columns
    simp only
    rw [zip_zip_map, hg]
    rfl

/-- The label the code makes. -/
theorem label_made {L S : ℚ} {l n : ℕ} (hL : L = l) (hS : 2 * S + 1 = n) (hl : l < 21) :
    ∃ X, lToLet (.npfloat L) = .ok X ∧ IsLabel (intStr (pyInt (2 * S + 1)) ++ [X]) L S := by
  subst hL
  have h1 : pyInt (l : ℚ) = l := by simp [pyInt]
  have h2 : pyInt (2 * S + 1) = n := by rw [hS]; simp [pyInt]
  obtain ⟨X, hX, hX2, _⟩ := C02_letter_roundtrip l hl
  refine ⟨X, ?_, l, n, X, rfl, hS, hX2, by rw [h2]; rfl⟩
  show pyIndex orbitals (pyInt (l : ℚ)) = _
  rw [h1]
  exact hX

theorem lsEntries_spec (rd : ℝ → ℝ) (A : ℚ → ℚ → ℝ) (g : List (ℚ × ℚ)) (hnat : ∀ p ∈ g, ∃ l n : ℕ, p.1 = l ∧ 2 * p.2 + 1 = n ∧ l < 21)
    (hnd : g.Nodup) : ∃ xs, lsEntries rd (g.map (fun p => (p.1, p.2, A p.1 p.2))) = .ok xs ∧
      Composition rd (fun _ => True) (fun _ => True) (fun L S => open Classical in if (L, S) ∈ g then A L S else 0) xs := by
  classical
  induction g with
  | nil =>
    refine ⟨[], rfl, ⟨by simp, ?_⟩⟩
    intro lab v
    simp
  | cons p g ih =>
    obtain ⟨xs, hxs, ho, hm⟩ := ih (fun q hq => hnat q (by simp [hq])) (List.nodup_cons.1 hnd).2
    have hpg := (List.nodup_cons.1 hnd).1
    obtain ⟨L, S⟩ := p
    by_cases h0 : A L S = 0
    · refine ⟨xs, by simp only [List.map_cons]; unfold lsEntries; rw [if_pos h0, hxs], ho, ?_⟩
      intro lab v
      rw [hm]
      constructor
      · rintro ⟨L', S', -, -, hne, hlab, hv⟩
        by_cases hmem : (L', S') ∈ g
        · refine ⟨L', S', trivial, trivial, ?_, hlab, ?_⟩
          · rw [if_pos hmem] at hne; rw [if_pos (by simp [hmem])]; exact hne
          · rw [if_pos hmem] at hv; rw [if_pos (by simp [hmem])]; exact hv
        · rw [if_neg hmem] at hne; exact absurd rfl hne
      · rintro ⟨L', S', -, -, hne, hlab, hv⟩
        by_cases hmem : (L', S') ∈ g
        · refine ⟨L', S', trivial, trivial, ?_, hlab, ?_⟩
          · rw [if_pos (by simp [hmem])] at hne; rw [if_pos hmem]; exact hne
          · rw [if_pos (by simp [hmem])] at hv; rw [if_pos hmem]; exact hv
        · by_cases he : (L', S') = (L, S)
          · cases he
            rw [if_pos (by simp)] at hne
            exact absurd h0 hne
          · rw [if_neg (by simp only [List.mem_cons, not_or]; exact ⟨he, hmem⟩)] at hne; exact absurd rfl hne
    · obtain ⟨l, n, hL, hS, hl⟩ := hnat (L, S) (by simp)
      obtain ⟨X, hX, hlab⟩ := label_made hL hS hl
      refine ⟨(intStr (pyInt (2 * S + 1)) ++ [X], rd (100 * A L S ^ 2)) :: xs, ?_, ?_, ?_⟩
      · simp only [List.map_cons]
        unfold lsEntries
        rw [if_neg h0, hX, hxs]
        rfl
      · simp only [List.map_cons, List.nodup_cons]
        refine ⟨?_, ho⟩
        intro hin
        obtain ⟨⟨lab', v⟩, hv, he⟩ := List.mem_map.1 hin
        simp only at he
        subst he
        obtain ⟨L', S', -, -, hne, hlab', _⟩ := (hm _ _).1 hv
        obtain ⟨rfl, rfl⟩ := label_unique hlab hlab'
        rw [if_neg hpg] at hne
        exact hne rfl
      · intro lab v
        simp only [List.mem_cons, Prod.mk.injEq]
        rw [hm]
        constructor
        · rintro (⟨rfl, rfl⟩ | ⟨L', S', -, -, hne, hlab', hv⟩)
          · exact ⟨L, S, trivial, trivial, by simpa using h0, hlab, by simp⟩
          · by_cases hmem : (L', S') ∈ g
            · refine ⟨L', S', trivial, trivial, ?_, hlab', ?_⟩
              · rw [if_pos hmem] at hne; rw [if_pos (Or.inr hmem)]; exact hne
              · rw [if_pos hmem] at hv; rw [if_pos (Or.inr hmem)]; exact hv
            · rw [if_neg hmem] at hne; exact absurd rfl hne
        · rintro ⟨L', S', -, -, hne, hlab', hv⟩
          by_cases hmem : (L', S') ∈ g
          · right
            refine ⟨L', S', trivial, trivial, ?_, hlab', ?_⟩
            · rw [if_pos (Or.inr hmem)] at hne; rw [if_pos hmem]; exact hne
            · rw [if_pos (Or.inr hmem)] at hv; rw [if_pos hmem]; exact hv
          · by_cases he : L' = L ∧ S' = S
            · obtain ⟨rfl, rfl⟩ := he
              left
              rw [if_pos (Or.inl ⟨rfl, rfl⟩)] at hv
              obtain ⟨l', n', X', hL', hn', hX', rfl⟩ := hlab'
              obtain ⟨l'', n'', X'', hL'', hn'', hX'', he⟩ := hlab
              have e1 : l' = l'' := by exact_mod_cast hL'.symm.trans hL''
              have e2 : n' = n'' := by exact_mod_cast hn'.symm.trans hn''
              subst e1 e2
              have e3 : X' = X'' := Option.some.inj (hX'.symm.trans hX'')
              subst e3
              exact ⟨he.symm, hv⟩
            · rw [if_neg (by simp only [not_or]; exact ⟨he, hmem⟩)] at hne; exact absurd rfl hne

theorem gridOf_nodup {ls ss : List ℚ} (hl : ls.Nodup) (hs : ss.Nodup) : (gridOf ls ss).Nodup := by
  unfold gridOf
  rw [List.nodup_flatMap]
  refine ⟨fun l _ => hs.map (fun a b h => by simpa using h), ?_⟩
  refine hl.imp (fun {a b} hab => ?_)
  intro p h1 h2
  simp only [List.mem_map] at h1 h2
  obtain ⟨s, _, rfl⟩ := h1
  obtain ⟨s', _, h⟩ := h2
  exact hab (by cases h; rfl)

/-- The list for a grid of amplitudes. -/
theorem readable_grid (rd : ℝ → ℝ) (f : ℚ → ℚ → Py ℝ) (A : ℚ → ℚ → ℝ) (PL PS : ℚ → Prop) (ls ss : List ℚ) (hl : ls.Nodup) (hs : ss.Nodup)
    (hls : ∀ L, L ∈ ls ↔ PL L) (hss : ∀ S, S ∈ ss ↔ PS S) (hne : ls ≠ []) (hne' : ss ≠ [])
    (hf : ∀ L S, PL L → PS S → f L S = .ok (A L S)) (hL : ∀ L, PL L → ∃ l : ℕ, L = l ∧ l < 21)
    (hS : ∀ S, PS S → ∃ n : ℕ, 2 * S + 1 = n) :
    ∃ xs, (onGrid f ls ss).bind (fun r => setsToList rd (columns r)) = .ok xs ∧ Composition rd PL PS A xs := by
  classical
  obtain ⟨r, hr, hc⟩ := onGrid_columns f A ls ss (fun l h1 s h2 => hf l s ((hls l).1 h1) ((hss s).1 h2))
  have hmem : ∀ L S, (L, S) ∈ gridOf ls ss ↔ PL L ∧ PS S := by
    intro L S
    unfold gridOf
    simp only [List.mem_flatMap, List.mem_map, Prod.mk.injEq]
    constructor
    · rintro ⟨l, h1, s, h2, rfl, rfl⟩
      exact ⟨(hls _).1 h1, (hss _).1 h2⟩
    · rintro ⟨h1, h2⟩
      exact ⟨L, (hls L).2 h1, S, (hss S).2 h2, rfl, rfl⟩
  obtain ⟨xs, hxs, ho, hm⟩ := lsEntries_spec rd A (gridOf ls ss) (by
    rintro ⟨L, S⟩ hp
    obtain ⟨h1, h2⟩ := (hmem L S).1 hp
    obtain ⟨l, hl, hl2⟩ := hL L h1
    obtain ⟨n, hn⟩ := hS S h2
    exact ⟨l, n, hl, hn, hl2⟩) (gridOf_nodup hl hs)
  refine ⟨xs, ?_, ho, ?_⟩
  · rw [hr]
    show setsToList rd (columns r) = .ok xs
    unfold setsToList
    rw [if_neg, hc, hxs]
    rw [hc, List.length_map]
    intro h0
    obtain ⟨a, ls', rfl⟩ := List.exists_cons_of_ne_nil hne
    obtain ⟨b, ss', rfl⟩ := List.exists_cons_of_ne_nil hne'
    simp [gridOf] at h0
  · intro lab v
    rw [hm]
    constructor
    · rintro ⟨L, S, -, -, hne, hlab, hv⟩
      by_cases hg : (L, S) ∈ gridOf ls ss
      · rw [if_pos hg] at hne hv
        exact ⟨L, S, ((hmem L S).1 hg).1, ((hmem L S).1 hg).2, hne, hlab, hv⟩
      · rw [if_neg hg] at hne; exact absurd rfl hne
    · rintro ⟨L, S, h1, h2, hne, hlab, hv⟩
      refine ⟨L, S, trivial, trivial, ?_, hlab, ?_⟩
      · rw [if_pos ((hmem L S).2 ⟨h1, h2⟩)]; exact hne
      · rw [if_pos ((hmem L S).2 ⟨h1, h2⟩)]; exact hv

/-- The 9j symbol of a list. -/
noncomputable def W9 : List ℤ → ℝ
  | [a, b, c, d, e, f, g, h, i] => Racah.w9 a b c d e f g h i
  | _ => 0

/-- The amplitude of `LS` in a jj-coupled state. -/
noncomputable def specJJ (J Jc Jo lc sc lo so L S : ℚ) : ℝ :=
  Racah.nine lc sc Jc lo so Jo L S J * Real.sqrt (((2 * Jc + 1) * (2 * Jo + 1) * (2 * L + 1) * (2 * S + 1) : ℚ) : ℝ)

/-- The amplitude of `LS` in a jK-coupled state, up to a phase. -/
noncomputable def specJK (J Jc K lc sc lo so L S : ℚ) : ℝ :=
  Real.sqrt (((2 * Jc + 1) * (2 * L + 1) * (2 * K + 1) * (2 * S + 1) : ℚ) : ℝ) * Racah.six sc lc Jc lo K L * Racah.six L sc K so J S

/-- The amplitude of `LS` in an LK-coupled state. -/
noncomputable def specLK (J L K sc so S : ℚ) : ℝ := Real.sqrt (((2 * K + 1) * (2 * S + 1) : ℚ) : ℝ) * Racah.six L sc K so J S

theorem spin_half {x : ℚ} (h : IsSpin x) : IsHalf x := by
  obtain ⟨n, rfl⟩ := h.isHalfInt
  exact ⟨n, rfl⟩

theorem couples_spin {a b x : ℚ} (ha : IsSpin a) (hb : IsSpin b) (h : Couples a b x) : IsSpin x ∧ ∃ n : ℕ, 2 * x + 1 = n := by
  obtain ⟨m, rfl⟩ := ha
  obtain ⟨n, rfl⟩ := hb
  obtain ⟨h1, _, z, rfl⟩ := h
  have h0 : (0 : ℚ) ≤ (m : ℚ) / 2 + (n : ℚ) / 2 + z := le_trans (abs_nonneg _) h1
  have h2 : (0 : ℤ) ≤ m + n + 2 * z := by
    have : (0 : ℚ) ≤ ((m + n + 2 * z : ℤ) : ℚ) := by push_cast; linarith
    exact_mod_cast this
  obtain ⟨k, hk⟩ := Int.eq_ofNat_of_zero_le h2
  have hk' : (m : ℚ) + n + 2 * z = k := by exact_mod_cast hk
  exact ⟨⟨k, by linarith⟩, k + 1, by push_cast; linarith⟩

theorem couples_nat {a b : ℕ} {x : ℚ} (h : Couples a b x) : ∃ l : ℕ, x = l ∧ l ≤ a + b := by
  obtain ⟨h1, h2, z, rfl⟩ := h
  have h0 : (0 : ℚ) ≤ (a : ℚ) + b + z := le_trans (abs_nonneg _) h1
  have h3 : (0 : ℤ) ≤ a + b + z := by exact_mod_cast h0
  obtain ⟨k, hk⟩ := Int.eq_ofNat_of_zero_le h3
  have hk' : (a : ℚ) + b + z = k := by exact_mod_cast hk
  refine ⟨k, hk', ?_⟩
  rw [hk'] at h2
  exact_mod_cast h2

theorem couples_range {a b : ℚ} (ha : IsSpin a) (hb : IsSpin b) (x : ℚ) : x ∈ arange |a - b| (|a + b| + 1) ↔ Couples a b x :=
  couples_iff (spin_half ha) (spin_half hb) ha.nonneg hb.nonneg x

theorem couples_ne {a b : ℚ} (ha : IsSpin a) (hb : IsSpin b) : arange |a - b| (|a + b| + 1) ≠ [] := by
  have : Couples a b (a + b) := by
    refine ⟨?_, le_refl _, 0, by simp⟩
    have h1 := ha.nonneg
    have h2 := hb.nonneg
    rw [abs_le]
    exact ⟨by linarith, by linarith⟩
  exact List.ne_nil_of_mem ((couples_range ha hb _).2 this)

theorem isSpin_nat (n : ℕ) : IsSpin (n : ℚ) := ⟨2 * n, by push_cast; ring⟩

/-- C91 for LK coupling. -/
theorem C91_lk {W : Wig} (hW : W.Good) (rd : ℝ → ℝ) (J K sc so : ℚ) (L : ℕ) (hL : L ≤ 20) (hJ : IsSpin J) (hK : IsSpin K)
    (hsc : IsSpin sc) (hso : IsSpin so) :
    ∃ xs, readableLK W rd J L K sc so = .ok xs ∧ Composition rd (· = (L : ℚ)) (Couples sc so) (fun L S => specLK J L K sc so S) xs := by
  refine readable_grid rd _ _ _ _ _ _ (List.nodup_singleton _) (Strengths.arange_nodup _ _) (by simp) (couples_range hsc hso) (by simp)
    (couples_ne hsc hso) ?_ ?_ ?_
  · intro L' S h1 h2
    subst h1
    rw [six_ok hW (isSpin_nat L).isHalfInt hsc.isHalfInt hK.isHalfInt hso.isHalfInt hJ.isHalfInt (couples_spin hsc hso h2).1.isHalfInt]
    rfl
  · intro L' h
    exact ⟨L, h, by omega⟩
  · intro S h
    exact (couples_spin hsc hso h).2

/-- C91 for jK coupling (what holds): for `lc + lo ≤ 20`, with a sign whose square is one. -/
theorem C91_jk_partial {W : Wig} (hW : W.Good) (sign : ℚ → ℝ) (rd : ℝ → ℝ) (J Jc K sc so : ℚ) (lc lo : ℕ) (hL : lc + lo ≤ 20)
    (hJ : IsSpin J) (hJc : IsSpin Jc) (hK : IsSpin K) (hsc : IsSpin sc) (hso : IsSpin so)
    (hs : ∀ L, Couples lc lo L → sign (-lc - lo - 2 * sc - so - K - L - J) ^ 2 = 1) :
    ∃ xs, readableJK W sign rd J Jc K lc sc lo so = .ok xs ∧
      Composition rd (Couples lc lo) (Couples sc so) (specJK J Jc K lc sc lo so) xs := by
  have key := readable_grid rd (fun L S => do
      let x ← W.w6j sc lc Jc lo K L
      let y ← W.w6j L sc K so J S
      .ok (sign (-lc - lo - 2 * sc - so - K - L - J) *
        Real.sqrt ((((2 * Jc + 1) * (2 * L + 1) * (2 * K + 1) * (2 * S + 1) : ℚ)) : ℝ) * x * y))
    (fun L S => sign (-lc - lo - 2 * sc - so - K - L - J) * specJK J Jc K lc sc lo so L S) (Couples lc lo) (Couples sc so)
    (arange |(lc : ℚ) - lo| (|(lc : ℚ) + lo| + 1)) (arange |sc - so| (|sc + so| + 1)) (Strengths.arange_nodup _ _) (Strengths.arange_nodup _ _)
    (couples_range (isSpin_nat lc) (isSpin_nat lo)) (couples_range hsc hso) (couples_ne (isSpin_nat lc) (isSpin_nat lo))
    (couples_ne hsc hso) ?_ ?_ ?_
  · obtain ⟨xs, h1, ho, hm⟩ := key
    refine ⟨xs, h1, ho, fun lab v => ?_⟩
    rw [hm]
    constructor
    · rintro ⟨L, S, h2, h3, h4, h5, rfl⟩
      refine ⟨L, S, h2, h3, (mul_ne_zero_iff.1 h4).2, h5, ?_⟩
      rw [mul_pow, hs L h2, one_mul]
    · rintro ⟨L, S, h2, h3, h4, h5, rfl⟩
      refine ⟨L, S, h2, h3, mul_ne_zero ?_ h4, h5, ?_⟩
      · intro h0
        have := hs L h2
        rw [h0] at this
        norm_num at this
      · rw [mul_pow, hs L h2, one_mul]
  · intro L S h1 h2
    have hLs := (couples_spin (isSpin_nat lc) (isSpin_nat lo) h1).1
    rw [six_ok hW hsc.isHalfInt (isSpin_nat lc).isHalfInt hJc.isHalfInt (isSpin_nat lo).isHalfInt hK.isHalfInt hLs.isHalfInt,
      six_ok hW hLs.isHalfInt hsc.isHalfInt hK.isHalfInt hso.isHalfInt hJ.isHalfInt (couples_spin hsc hso h2).1.isHalfInt]
    simp only [bind, Except.bind, specJK]
    congr 1
    ring
  · intro L h
    obtain ⟨l, h1, h2⟩ := couples_nat h
    exact ⟨l, h1, by omega⟩
  · intro S h
    exact (couples_spin hsc hso h).2

theorem nine_ok {W : Wig} (hW : Faithful W9 W.nine) {a b c d e f g h i : ℚ} (ha : IsSpin a) (hb : IsSpin b) (hc : IsSpin c)
    (hd : IsSpin d) (he : IsSpin e) (hf : IsSpin f) (hg : IsSpin g) (hh : IsSpin h) (hi : IsSpin i) :
    W.w9j a b c d e f g h i = .ok (Racah.nine a b c d e f g h i) := by
  obtain ⟨a, rfl⟩ := spin_half ha
  obtain ⟨b, rfl⟩ := spin_half hb
  obtain ⟨c, rfl⟩ := spin_half hc
  obtain ⟨d, rfl⟩ := spin_half hd
  obtain ⟨e, rfl⟩ := spin_half he
  obtain ⟨f, rfl⟩ := spin_half hf
  obtain ⟨g, rfl⟩ := spin_half hg
  obtain ⟨h, rfl⟩ := spin_half hh
  obtain ⟨i, rfl⟩ := spin_half hi
  have := picker_val hW ([a, b, c, d, e, f, g, h, i].map half)
  rw [valOf_half] at this
  have hfl : ∀ n : ℤ, ⌊2 * half n⌋ = n := by
    intro n
    rw [show 2 * half n = (n : ℚ) by unfold half; ring]
    exact Int.floor_intCast n
  unfold Racah.nine
  simp only [hfl]
  exact this

/-- C91 for jj coupling (what holds): for `lc + lo ≤ 20`. -/
theorem C91_jj_partial {W : Wig} (hW : Faithful W9 W.nine) (rd : ℝ → ℝ) (J Jc Jo sc so : ℚ) (lc lo : ℕ) (hL : lc + lo ≤ 20)
    (hJ : IsSpin J) (hJc : IsSpin Jc) (hJo : IsSpin Jo) (hsc : IsSpin sc) (hso : IsSpin so) :
    ∃ xs, readableJJ W rd J Jc Jo lc sc lo so = .ok xs ∧
      Composition rd (Couples lc lo) (Couples sc so) (specJJ J Jc Jo lc sc lo so) xs := by
  refine readable_grid rd _ _ _ _ _ _ (Strengths.arange_nodup _ _) (Strengths.arange_nodup _ _) (couples_range (isSpin_nat lc) (isSpin_nat lo))
    (couples_range hsc hso) (couples_ne (isSpin_nat lc) (isSpin_nat lo)) (couples_ne hsc hso) ?_ ?_ ?_
  · intro L S h1 h2
    rw [nine_ok hW (isSpin_nat lc) hsc hJc (isSpin_nat lo) hso hJo (couples_spin (isSpin_nat lc) (isSpin_nat lo) h1).1
      (couples_spin hsc hso h2).1 hJ]
    rfl
  · intro L h
    obtain ⟨l, h1, h2⟩ := couples_nat h
    exact ⟨l, h1, by omega⟩
  · intro S h
    exact (couples_spin hsc hso h).2

/-- `term_to_LS` of an LS term is the term itself; of a term whose coupling is not recognised it is `None`; of the others it is the
list made by the conversion for the coupling, from the parsed quantum numbers. -/
theorem C91_term (W : Wig) (sign : ℚ → ℝ) (rd : ℝ → ℝ) (conf term : Str) (j : ℚ) (q : QNums) (hq : getQuantumNums conf term = .ok q) :
    (getTermCoupling term = .LS → termToLS W sign rd conf term j = .ok (some [(term, 100)])) ∧
    (getTermCoupling term = .unknown → termToLS W sign rd conf term j = .ok none) ∧
    (getTermCoupling term = .JJ → ∀ jc jo lc sc lo so, q.jc = some jc → q.jo = some jo → q.lc = some lc → q.sc = some sc →
      q.lo = some lo → q.so = some so → termToLS W sign rd conf term j = (readableJJ W rd j jc jo lc sc lo so).map some) ∧
    (getTermCoupling term = .JK → ∀ jc k lc sc lo so, q.jc = some jc → q.k = some k → q.lc = some lc → q.sc = some sc →
      q.lo = some lo → q.so = some so → termToLS W sign rd conf term j = (readableJK W sign rd j jc k lc sc lo so).map some) ∧
    (getTermCoupling term = .LK → ∀ l k sc so, q.l = some l → q.k = some k → q.sc = some sc →
      q.so = some so → termToLS W sign rd conf term j = (readableLK W rd j l k sc so).map some) := by
  have e : termToLS W sign rd conf term j = composition W sign rd term j q (getTermCoupling term) := by
    unfold termToLS
    rw [hq]
    rfl
  have hmap : ∀ (x : Py (List ℚ × List ℚ × List ℝ)), (do
      let r ← x
      let xs ← setsToList rd (columns r)
      (.ok (some xs) : Py (Option (List (Str × ℝ))))) = ((do
      let r ← x
      setsToList rd (columns r) : Py (List (Str × ℝ)))).map some := by
    intro x
    cases x with
    | error e => rfl
    | ok r =>
      show (setsToList rd (columns r) >>= fun xs => (.ok (some xs) : Py (Option (List (Str × ℝ))))) = (setsToList rd (columns r)).map some
      cases setsToList rd (columns r) <;> rfl
  refine ⟨fun h => by rw [e, h]; rfl, fun h => by rw [e, h]; rfl, ?_, ?_, ?_⟩
  · intro h jc jo lc sc lo so h1 h2 h3 h4 h5 h6
    rw [e, h]
    unfold composition readableJJ convert
    simp only [h1, h2, h3, h4, h5, h6]
    exact hmap _
  · intro h jc k lc sc lo so h1 h2 h3 h4 h5 h6
    rw [e, h]
    unfold composition readableJK convert
    simp only [h1, h2, h3, h4, h5, h6]
    exact hmap _
  · intro h l k sc so h1 h2 h3 h4
    rw [e, h]
    unfold composition readableLK convert
    simp only [h1, h2, h3, h4]
    exact hmap _

/-- C91: a quantum number that the texts do not give, and the conversion needs, is a TypeError. -/
theorem C91_missing (W : Wig) (sign : ℚ → ℝ) (rd : ℝ → ℝ) (conf term : Str) (j : ℚ) (q : QNums) (hq : getQuantumNums conf term = .ok q)
    (h : (getTermCoupling term = .JJ ∧ none ∈ [q.jc, q.jo, q.lc, q.sc, q.lo, q.so]) ∨
      (getTermCoupling term = .JK ∧ none ∈ [q.jc, q.k, q.lc, q.sc, q.lo, q.so]) ∨
      (getTermCoupling term = .LK ∧ none ∈ [q.l, q.k, q.sc, q.so])) :
    termToLS W sign rd conf term j = .error .TypeError := by
  have e : termToLS W sign rd conf term j = composition W sign rd term j q (getTermCoupling term) := by
    unfold termToLS
    rw [hq]
    rfl
  rcases h with ⟨h, hn⟩ | ⟨h, hn⟩ | ⟨h, hn⟩ <;> rw [e, h]
  · have : convert W sign j q .JJ = .error .TypeError := by
      simp only [convert]
      split
      · rename_i h1 h2 h3 h4 h5 h6
        simp [h1, h2, h3, h4, h5, h6] at hn
      · rfl
    simp only [composition, this]
    rfl
  · have : convert W sign j q .JK = .error .TypeError := by
      simp only [convert]
      split
      · rename_i h1 h2 h3 h4 h5 h6
        simp [h1, h2, h3, h4, h5, h6] at hn
      · rfl
    simp only [composition, this]
    rfl
  · have : convert W sign j q .LK = .error .TypeError := by
      simp only [convert]
      split
      · rename_i h1 h2 h3 h4
        simp [h1, h2, h3, h4] at hn
      · rfl
    simp only [composition, this]
    rfl

/-- A jK term whose configuration does not give the J of the core. -/
example (W : Wig) (sign : ℚ → ℝ) (rd : ℝ → ℝ) : termToLS W sign rd "4f13.(2F*).5d".toList "3[3/2]*".toList (5/2) = .error .TypeError :=
  C91_missing W sign rd _ _ _ (match getQuantumNums "4f13.(2F*).5d".toList "3[3/2]*".toList with
    | .ok q => q
    | .error _ => {}) (by decide +kernel) (.inr (.inl (by decide +kernel)))

/-- Yb+ levels of the three couplings. -/
example : (getQuantumNums "4f13.(2F*<7/2>).5d.6s.(3D)".toList "3[3/2]*".toList = .ok
      { lc := some 3, sc := some (1/2), lo := some 2, so := some 1, jc := some (7/2), k := some (3/2) } ∧
      getTermCoupling "3[3/2]*".toList = .JK) ∧
    (getQuantumNums "4f13.(2F*<7/2>).6s<1/2>".toList "(7/2,1/2)*".toList).map (fun q => (q.jc, q.jo, q.lo, q.so)) =
      .ok (some (7/2), some (1/2), some 0, some 0) ∧
    (getQuantumNums "4f13.(2F*).5d".toList "G 2[9/2]*".toList).map (fun q => (q.l, q.k, q.sc, q.so)) =
      .ok (some 4, some (9/2), some (1/2), some (1/2)) := by decide +kernel

example : IsSpin (3/2) ∧ IsSpin (7/2) ∧ Couples 3 2 5 ∧ 3 + 2 ≤ 20 :=
  ⟨⟨3, by norm_num⟩, ⟨7, by norm_num⟩, ⟨by norm_num, by norm_num, 0, by norm_num⟩, by norm_num⟩

/-- C91 for jK coupling in full, from the text of configuration and term. -/
def C91_full : Prop := ∀ (W : Wig), W.Good → ∀ (sign : ℚ → ℝ) (rd : ℝ → ℝ) (conf term : Str) (j jc k lc sc lo so : ℚ),
  (∀ z : ℤ, sign z ^ 2 = 1) → getTermCoupling term = .JK →
  getQuantumNums conf term = .ok { lc := some lc, sc := some sc, lo := some lo, so := some so, jc := some jc, k := some k } →
  IsSpin j → IsSpin jc → IsSpin k →
  ∃ xs, termToLS W sign rd conf term j = .ok (some xs) ∧ Composition rd (Couples lc lo) (Couples sc so) (specJK j jc k lc sc lo so) xs

theorem six_zero_first {b c d e f : ℤ} (h : e ≠ f) : Racah.w6 0 b c d e f = 0 := by
  apply Racah.w6_zero
  rintro ⟨_, ⟨_, h2, h3⟩, _⟩
  rw [abs_le] at h2
  omega

theorem w6_nonzero {a b c d e f : ℤ} (hi : Racah.Int6 a b c d e f) (h : Racah.norm6 a b c d e f * Racah.core6 a b c d e f ^ 2 ≠ 0) :
    Racah.w6 a b c d e f ≠ 0 := by
  intro h0
  have := Racah.w6_sq a b c d e f
  rw [h0, if_pos hi] at this
  apply h
  have h2 : ((Racah.norm6 a b c d e f * Racah.core6 a b c d e f ^ 2 : ℚ) : ℝ) = 0 := by rw [← this]; simp
  exact_mod_cast h2

/-- C91 fails: for a core of L = 20 and a p electron the list contains L = 21, which has no letter. -/
theorem C91_fails : ¬C91_full := by
  intro hfull
  obtain ⟨xs, h, _⟩ := hfull exactWig exactWig_good (fun _ => 1) id "(1Z<20>)5p".toList "2[21]".toList (43/2) 20 21 20 0 1 (1/2)
    (by intro z; norm_num) (by decide) (by decide +kernel) ⟨43, by norm_num⟩ ⟨40, by norm_num⟩ ⟨42, by norm_num⟩
  have ht := (C91_term exactWig (fun _ => 1) id "(1Z<20>)5p".toList "2[21]".toList (43/2) _
    (by decide +kernel : getQuantumNums "(1Z<20>)5p".toList "2[21]".toList = .ok { lc := some 20, sc := some 0, lo := some 1, so := some (1/2), jc := some 20, k := some 21 })).2.2.2.1
    (by decide) 20 21 20 0 1 (1/2) rfl rfl rfl rfl rfl rfl
  rw [ht] at h
  have hh : ∀ n : ℤ, IsHalfInt ((n : ℚ) / 2) := fun n => ⟨n, rfl⟩
  have e1 : (arange |(20 : ℚ) - 1| (|(20 : ℚ) + 1| + 1)) = [19, 20, 21] := by decide +kernel
  have e2 : (arange |(0 : ℚ) - 1/2| (|(0 : ℚ) + 1/2| + 1)) = [1/2] := by decide +kernel
  obtain ⟨r, hr, hc⟩ := onGrid_columns (fun L S => do
      let x ← exactWig.w6j 0 20 20 1 21 L
      let y ← exactWig.w6j L 0 21 (1/2) (43/2) S
      .ok ((fun _ : ℚ => (1 : ℝ)) (-20 - 1 - 2 * 0 - 1/2 - 21 - L - 43/2) *
        Real.sqrt ((((2 * 20 + 1) * (2 * L + 1) * (2 * 21 + 1) * (2 * S + 1) : ℚ)) : ℝ) * x * y))
    (fun L S => 1 * Real.sqrt ((((2 * 20 + 1) * (2 * L + 1) * (2 * 21 + 1) * (2 * S + 1) : ℚ)) : ℝ) * Racah.six 0 20 20 1 21 L *
      Racah.six L 0 21 (1/2) (43/2) S) [19, 20, 21] [1/2] (by
        intro l hl s hs
        simp only [List.mem_singleton] at hs
        have hl2 : IsHalfInt l := by
          simp only [List.mem_cons, List.not_mem_nil, or_false] at hl
          rcases hl with rfl | rfl | rfl
          · exact ⟨38, by norm_num⟩
          · exact ⟨40, by norm_num⟩
          · exact ⟨42, by norm_num⟩
        subst hs
        rw [six_ok exactWig_good ⟨0, by norm_num⟩ ⟨40, by norm_num⟩ ⟨40, by norm_num⟩ ⟨2, by norm_num⟩ ⟨42, by norm_num⟩ hl2,
          six_ok exactWig_good hl2 ⟨0, by norm_num⟩ ⟨42, by norm_num⟩ ⟨1, by norm_num⟩ ⟨43, by norm_num⟩ ⟨1, by norm_num⟩]
        rfl)
  unfold readableJK jkToLS at h
  rw [e1, e2, hr] at h
  simp only [bind, Except.bind] at h
  rw [hc] at h
  have z1 : Racah.six 0 20 20 1 21 19 = 0 := by
    have := six_half 0 40 40 2 42 38
    rw [six_zero_first (by norm_num)] at this
    rw [← this]; norm_num [half]
  have z2 : Racah.six 0 20 20 1 21 20 = 0 := by
    have := six_half 0 40 40 2 42 40
    rw [six_zero_first (by norm_num)] at this
    rw [← this]; norm_num [half]
  have z3 : Racah.six 0 20 20 1 21 21 ≠ 0 := by
    have := six_half 0 40 40 2 42 42
    rw [show Racah.six 0 20 20 1 21 21 = Racah.w6 0 40 40 2 42 42 by rw [← this]; norm_num [half]]
    exact w6_nonzero (by decide) (by decide +kernel)
  have z4 : Racah.six 21 0 21 (1/2) (43/2) (1/2) ≠ 0 := by
    have := six_half 42 0 42 1 43 1
    rw [show Racah.six 21 0 21 (1/2) (43/2) (1/2) = Racah.w6 42 0 42 1 43 1 by rw [← this]; norm_num [half]]
    exact w6_nonzero (by decide) (by decide +kernel)
  have z5 : Real.sqrt ((((2 * 20 + 1) * (2 * 21 + 1) * (2 * 21 + 1) * (2 * (1/2) + 1) : ℚ)) : ℝ) ≠ 0 := by
    apply ne_of_gt
    apply Real.sqrt_pos.2
    norm_num
  have hg : gridOf [19, 20, 21] [1/2] = [(19, 1/2), (20, 1/2), (21, 1/2)] := rfl
  rw [hg] at h
  unfold setsToList at h
  simp only [List.map_cons, List.map_nil, List.length_cons, List.length_nil] at h
  rw [if_neg (by norm_num)] at h
  unfold lsEntries at h
  rw [if_pos (by rw [z1]; ring)] at h
  unfold lsEntries at h
  rw [if_pos (by rw [z2]; ring)] at h
  unfold lsEntries at h
  rw [if_neg (by
    simp only [one_mul]
    exact mul_ne_zero (mul_ne_zero z5 z3) z4)] at h
  rw [show lToLet (.npfloat 21) = .error .IndexError by decide +kernel] at h
  simp [bind, Except.bind, Except.map] at h

/-! ## C92 -/

/-- C92 in full: the LS terms have the parity of the term they are composed into. -/
def C92_full : Prop := ∀ (W : Wig), W.Good → Faithful W9 W.nine → ∀ (sign : ℚ → ℝ) (rd : ℝ → ℝ) (conf term : Str) (j : ℚ) (xs : List (Str × ℝ)),
  termToLS W sign rd conf term j = .ok (some xs) → ∀ e ∈ xs, ('*' ∈ e.1 ↔ '*' ∈ term)

theorem lToLet_nostar {a : LArg} {X : Char} (h : lToLet a = .ok X) : X ≠ '*' := by
  have hm : ∀ i, pyIndex orbitals i = .ok X → X ≠ '*' := by
    intro i hi
    have : X ∈ orbitals := by
      unfold pyIndex at hi
      simp only at hi
      generalize (if i < 0 then i + (orbitals.length : ℤ) else i) = k at hi
      by_cases h0 : k < 0
      · rw [if_pos h0] at hi; cases hi
      · rw [if_neg h0] at hi
        cases ho : orbitals[k.toNat]? with
        | none => rw [ho] at hi; cases hi
        | some v => rw [ho] at hi; cases hi; exact List.mem_of_getElem? ho
    intro he
    subst he
    revert this
    decide
  cases a with
  | int i => exact hm _ h
  | float q =>
    unfold lToLet at h
    simp only at h
    split at h
    · exact hm _ h
    · cases h
  | npfloat q => exact hm _ h
  | str s => cases h

theorem intStr_nostar (i : ℤ) : '*' ∉ intStr i := by
  cases i with
  | ofNat n => intro h; exact absurd (natStr_dig n _ h) (by decide)
  | negSucc n =>
    intro h
    simp only [intStr, List.mem_cons] at h
    rcases h with h | h
    · revert h; decide
    · exact absurd (natStr_dig _ _ h) (by decide)

theorem lsEntries_nostar (rd : ℝ → ℝ) (l : List (ℚ × ℚ × ℝ)) (xs : List (Str × ℝ)) (h : lsEntries rd l = .ok xs) : ∀ e ∈ xs, '*' ∉ e.1 := by
  classical
  induction l generalizing xs with
  | nil => cases h; simp
  | cons p l ih =>
    obtain ⟨L, S, x⟩ := p
    unfold lsEntries at h
    by_cases h0 : x = 0
    · rw [if_pos h0] at h; exact ih xs h
    · rw [if_neg h0] at h
      cases hc : lToLet (.npfloat L) with
      | error e => rw [hc] at h; cases h
      | ok X =>
        cases hr : lsEntries rd l with
        | error e => rw [hc, hr] at h; cases h
        | ok ys =>
          rw [hc, hr] at h
          cases h
          intro e he
          simp only [List.mem_cons] at he
          rcases he with rfl | he
          · simp only [List.mem_append, List.mem_singleton, not_or]
            exact ⟨intStr_nostar _, fun h => lToLet_nostar hc h.symm⟩
          · exact ih ys hr e he

/-- C92 (what holds): an LS term is returned with its star, and no other list contains a star: even terms are right.  Missing for the
full property: odd terms of the other couplings. -/
theorem C92_even_partial (W : Wig) (sign : ℚ → ℝ) (rd : ℝ → ℝ) (conf term : Str) (j : ℚ) (xs : List (Str × ℝ))
    (h : termToLS W sign rd conf term j = .ok (some xs)) :
    (getTermCoupling term = .LS → ∀ e ∈ xs, ('*' ∈ e.1 ↔ '*' ∈ term)) ∧ (getTermCoupling term ≠ .LS → ∀ e ∈ xs, '*' ∉ e.1) ∧
    ('*' ∉ term → ∀ e ∈ xs, ('*' ∈ e.1 ↔ '*' ∈ term)) := by
  have hno : getTermCoupling term ≠ .LS → ∀ e ∈ xs, '*' ∉ e.1 := by
    intro hc
    unfold termToLS at h
    cases hq : getQuantumNums conf term with
    | error e => rw [hq] at h; cases h
    | ok q =>
      rw [hq] at h
      replace h : composition W sign rd term j q (getTermCoupling term) = .ok (some xs) := h
      have key : ∀ x : Py (List ℚ × List ℚ × List ℝ), (do
          let r ← x
          let ys ← setsToList rd (columns r)
          (.ok (some ys) : Py (Option (List (Str × ℝ))))) = .ok (some xs) → ∀ e ∈ xs, '*' ∉ e.1 := by
        intro x hx
        cases x with
        | error e => cases hx
        | ok r =>
          cases hs : setsToList rd (columns r) with
          | error e => simp only [bind, Except.bind, hs] at hx; cases hx
          | ok ys =>
            simp only [bind, Except.bind, hs] at hx
            cases hx
            unfold setsToList at hs
            split at hs
            · cases hs
            · exact lsEntries_nostar rd _ _ hs
      cases hcc : getTermCoupling term with
      | LS => exact absurd hcc hc
      | unknown => rw [hcc] at h; cases h
      | JJ => rw [hcc] at h; exact key _ h
      | JK => rw [hcc] at h; exact key _ h
      | LK => rw [hcc] at h; exact key _ h
  have hls : getTermCoupling term = .LS → ∀ e ∈ xs, ('*' ∈ e.1 ↔ '*' ∈ term) := by
    intro hc
    unfold termToLS at h
    cases hq : getQuantumNums conf term with
    | error e => rw [hq] at h; cases h
    | ok q =>
      rw [hq] at h
      replace h : composition W sign rd term j q (getTermCoupling term) = .ok (some xs) := h
      rw [hc] at h
      cases h
      simp
  refine ⟨hls, hno, fun he e hm => ?_⟩
  by_cases hc : getTermCoupling term = .LS
  · exact hls hc e hm
  · exact ⟨fun h' => absurd h' (hno hc e hm), fun h' => absurd h' he⟩

/-- `L = 1`, `sc = 0`, `so = 1/2`, `K = 1`, `J = 3/2`: a pure 2P. -/
theorem lk_pure : specLK (3/2) 1 1 0 (1/2) (1/2) = -1 := by
  have hs := six_half 2 0 2 1 3 1
  have e : Racah.six 1 0 1 (1/2) (3/2) (1/2) = Racah.w6 2 0 2 1 3 1 := by rw [← hs]; norm_num [half]
  unfold specLK
  rw [e]
  have h1 : Racah.w6 2 0 2 1 3 1 = Real.sqrt (Racah.norm6 2 0 2 1 3 1) * Racah.core6 2 0 2 1 3 1 := by
    unfold Racah.w6
    rw [if_pos (by decide)]
  have h2 : Racah.norm6 2 0 2 1 3 1 = 1 / 864 := by decide +kernel
  have h3 : Racah.core6 2 0 2 1 3 1 = -12 := by decide +kernel
  rw [h1, h2, h3]
  rw [← mul_assoc, ← Real.sqrt_mul (by norm_num)]
  rw [show (((2 * 1 + 1) * (2 * (1 / 2) + 1) : ℚ) : ℝ) * ((1 / 864 : ℚ) : ℝ) = (1 / 12) ^ 2 by norm_num, Real.sqrt_sq (by norm_num)]
  norm_num

/-- A backend whose three functions are right. -/
noncomputable def fullWig : Wig := ⟨.py3nj (fun l => .ok (W3 l)), .py3nj (fun l => .ok (W6 l)), .py3nj (fun l => .ok (W9 l))⟩

theorem fullWig_good : fullWig.Good ∧ Faithful W9 fullWig.nine := ⟨⟨fun _ => .inl rfl, fun _ => .inl rfl⟩, fun _ => .inl rfl⟩

/-- C92 fails: the odd LK term `P 2[1]*` is composed of an even `2P`. -/
theorem C92_fails : ¬C92_full := by
  intro h
  have hq : getQuantumNums "4f14.(1S).6p".toList "P 2[1]*".toList = .ok { lc := some 0, sc := some 0, lo := some 1, so := some (1/2), l := some 1, k := some 1 } := by
    decide +kernel
  have ht := (C91_term fullWig (fun _ => 1) id "4f14.(1S).6p".toList "P 2[1]*".toList (3/2) _ hq).2.2.2.2 (by decide) 1 1 0 (1/2) rfl rfl rfl rfl
  obtain ⟨xs, h1, h2⟩ := C91_lk fullWig_good.1 id (3/2) 1 0 (1/2) 1 (by norm_num) ⟨3, by norm_num⟩ ⟨2, by norm_num⟩ ⟨0, by norm_num⟩ ⟨1, by norm_num⟩
  rw [show ((1 : ℕ) : ℚ) = 1 by norm_num] at h1 h2
  rw [h1] at ht
  have hm := (h2.mem "2P".toList (id (100 * specLK (3/2) 1 1 0 (1/2) (1/2) ^ 2))).2 ⟨1, 1/2, rfl, ⟨by norm_num, by norm_num, 0, by norm_num⟩,
    by rw [lk_pure]; norm_num, ⟨1, 2, 'P', by norm_num, by norm_num, by decide, by decide⟩, rfl⟩
  have := (h fullWig fullWig_good.1 fullWig_good.2 (fun _ => 1) id _ _ _ xs ht _ hm).2 (by decide)
  revert this
  decide

/-! ## C93 -/

/-- C93 in full: a state that cannot be coupled is rejected, as the message "Invalid input state" says. -/
def C93_full : Prop := ∀ (W : Wig), W.Good → ∀ (rd : ℝ → ℝ) (J L K sc so : ℚ), IsSpin J → IsSpin L → IsSpin K → IsSpin sc → IsSpin so →
  ¬(Couples L sc K ∧ Couples K so J) → readableLK W rd J L K sc so = .error .ValueError

/-- C93 (what holds): such a state gives an empty list.  Missing for the full property: the error. -/
theorem C93_empty_partial {W : Wig} (hW : W.Good) (rd : ℝ → ℝ) (J K sc so : ℚ) (L : ℕ) (hL : L ≤ 20) (hJ : IsSpin J) (hK : IsSpin K)
    (hsc : IsSpin sc) (hso : IsSpin so) (h : ¬(Couples L sc K ∧ Couples K so J)) : readableLK W rd J L K sc so = .ok [] := by
  obtain ⟨xs, h1, h2⟩ := C91_lk hW rd J K sc so L hL hJ hK hsc hso
  rw [h1]
  congr 1
  rw [List.eq_nil_iff_forall_not_mem]
  rintro ⟨lab, v⟩ hm
  obtain ⟨L', S, rfl, hS, hne, _⟩ := (h2.mem lab v).1 hm
  apply hne
  have hSs := (couples_spin hsc hso hS).1
  obtain ⟨j, rfl⟩ := spin_half hJ
  obtain ⟨k, rfl⟩ := spin_half hK
  obtain ⟨c, rfl⟩ := spin_half hsc
  obtain ⟨o, rfl⟩ := spin_half hso
  obtain ⟨s, rfl⟩ := spin_half hSs
  have eL : (L : ℚ) = half (2 * L) := by unfold half; push_cast; ring
  unfold specLK
  rw [eL, six_half, Racah.w6_zero, mul_zero]
  rintro ⟨⟨p1, p2, p3⟩, -, -, ⟨q1, q2, q3⟩⟩
  apply h
  constructor
  · refine ⟨?_, ?_, ?_⟩
    · have : ((|2 * (L : ℤ) - c| : ℤ) : ℚ) ≤ (k : ℚ) := by exact_mod_cast p2
      push_cast at this
      rw [eL]
      unfold half
      push_cast
      rw [← sub_div, abs_div, abs_two]
      linarith
    · have : (k : ℚ) ≤ 2 * L + c := by exact_mod_cast p3
      rw [eL]; unfold half; push_cast; linarith
    · refine ⟨(k - 2 * L - c) / 2, ?_⟩
      have hd : (k - 2 * (L : ℤ) - c) / 2 * 2 = k - 2 * L - c := Int.ediv_mul_cancel (by omega)
      have hd' : (((k - 2 * (L : ℤ) - c) / 2 : ℤ) : ℚ) * 2 = k - 2 * L - c := by exact_mod_cast hd
      rw [eL]; unfold half; push_cast; linarith
  · refine ⟨?_, ?_, ?_⟩
    · have : ((|o - j| : ℤ) : ℚ) ≤ (k : ℚ) := by exact_mod_cast q2
      push_cast at this
      rw [abs_le] at this
      have h3 : (k : ℚ) ≤ o + j := by exact_mod_cast q3
      unfold half
      rw [abs_le]
      constructor <;> linarith
    · have : ((|o - j| : ℤ) : ℚ) ≤ (k : ℚ) := by exact_mod_cast q2
      push_cast at this
      rw [abs_le] at this
      unfold half; linarith
    · refine ⟨(j - k - o) / 2, ?_⟩
      have hd : (j - k - o) / 2 * 2 = j - k - o := Int.ediv_mul_cancel (by omega)
      have hd' : (((j - k - o) / 2 : ℤ) : ℚ) * 2 = j - k - o := by exact_mod_cast hd
      unfold half; linarith

/-- L = 1 and sc = 0 cannot give K = 3. -/
theorem lk_impossible : ¬(Couples (1 : ℕ) 0 3 ∧ Couples 3 (1/2) (7/2)) := by
  rintro ⟨⟨_, h, _⟩, _⟩
  norm_num at h

/-- C93 fails. -/
theorem C93_fails : ¬C93_full := by
  intro h
  have h1 := h fullWig fullWig_good.1 id (7/2) (1 : ℕ) 3 0 (1/2) ⟨7, by norm_num⟩ ⟨2, by norm_num⟩ ⟨6, by norm_num⟩ ⟨0, by norm_num⟩ ⟨1, by norm_num⟩ lk_impossible
  rw [C93_empty_partial fullWig_good.1 id (7/2) 3 0 (1/2) 1 (by norm_num) ⟨7, by norm_num⟩ ⟨6, by norm_num⟩ ⟨0, by norm_num⟩ ⟨1, by norm_num⟩ lk_impossible] at h1
  cases h1

/-! ## C94 -/

/-- C94 in full, for LK coupling: the Landé factor is the mean of those of the LS terms, weighted with their shares. -/
def C94_full : Prop := ∀ (W : Wig), W.Good → ∀ (sign : ℚ → ℝ) (t : Term) (J L K sc so : ℚ), t.coupling = .LK → t.percentage = 100 →
  t.J = some J → 0 < J → t.qn.l = some L → t.qn.k = some K → t.qn.sc = some sc → t.qn.so = some so →
  IsSpin J → IsSpin L → IsSpin K → IsSpin sc → IsSpin so →
  gjOf W sign (MultiTerm.mk' [t]) =
    .ok (some ((arange |sc - so| (|sc + so| + 1)).map (fun S => specLK J L K sc so S ^ 2 * ((specLande J L S : ℚ) : ℝ))).sum)

theorem landeSum_map {J : ℚ} (h : 0 < J) (A : ℚ → ℚ → ℝ) (g : List (ℚ × ℚ)) :
    landeSum J (g.map (fun p => (p.1, p.2, A p.1 p.2))) = some (g.map (fun p => A p.1 p.2 * ((specLande J p.1 p.2 : ℚ) : ℝ))).sum := by
  have hne : ¬2 * J * (J + 1) = 0 := by positivity
  induction g with
  | nil => rfl
  | cons p g ih =>
    simp only [List.map_cons, List.sum_cons]
    unfold landeSum
    rw [ih, landeOne, if_neg hne]
    rfl

/-- C94 for LK coupling (what holds): the Landé factors of the LS terms are summed, but weighted with the amplitudes instead of their
squares, and the percentage is not divided by 100.  Missing for the full property: the squares. -/
theorem C94_amplitudes_partial {W : Wig} (hW : W.Good) (sign : ℚ → ℝ) (t : Term) (J L K sc so : ℚ) (hc : t.coupling = .LK)
    (hJ : t.J = some J) (h0 : 0 < J) (hl : t.qn.l = some L) (hk : t.qn.k = some K) (hsc : t.qn.sc = some sc) (hso : t.qn.so = some so)
    (sJ : IsSpin J) (sL : IsSpin L) (sK : IsSpin K) (ssc : IsSpin sc) (sso : IsSpin so) :
    gjOf W sign (MultiTerm.mk' [t]) = .ok (some ((t.percentage : ℝ) *
      ((arange |sc - so| (|sc + so| + 1)).map (fun S => specLK J L K sc so S * ((specLande J L S : ℚ) : ℝ))).sum)) := by
  have h1 : (MultiTerm.mk' [t]).terms = [t] := rfl
  have h2 : (MultiTerm.mk' [t]).termsDict = [(t.percentage, t)] := rfl
  obtain ⟨r, hr, hcol⟩ := onGrid_columns (fun _ S => do
      let x ← W.w6j L sc K so J S
      .ok (Real.sqrt ((((2 * K + 1) * (2 * S + 1) : ℚ)) : ℝ) * x)) (fun _ S => specLK J L K sc so S) [L] (arange |sc - so| (|sc + so| + 1)) (by
    intro l _ s hs
    rw [six_ok hW sL.isHalfInt ssc.isHalfInt sK.isHalfInt sso.isHalfInt sJ.isHalfInt
      (couples_spin ssc sso ((couples_range ssc sso s).1 hs)).1.isHalfInt]
    rfl)
  have hr' : lkToLS W J L K sc so = .ok r := hr
  have e : gjTriples W sign t t.coupling = .ok (some (columns r)) := by
    rw [hc]
    unfold gjTriples convert
    simp only [hJ, hl, hk, hsc, hso, hr', bind, Except.bind]
  unfold gjOf
  rw [h1, h2]
  simp only
  unfold gjLoop
  rw [e, hJ]
  simp only [bind, Except.bind]
  unfold gjLoop
  rw [hcol, landeSum_map h0 (fun _ S => specLK J L K sc so S)]
  simp only [Option.bind, gridOf, List.flatMap_cons, List.flatMap_nil, List.append_nil, List.map_map, zero_add]
  rfl

/-- The pure 2P of `lk_pure` as a level. -/
def pureLK : Term := ⟨"4f14.(1S).6p".toList, "P 2[1]*".toList, some (3/2), none, none, 100,
  { lc := some 0, sc := some 0, lo := some 1, so := some (1/2), l := some 1, k := some 1 }⟩

example : Term.mk' pureLK.conf pureLK.term (.num (3/2)) .none .none = .ok pureLK ∧ pureLK.coupling = .LK := by decide +kernel

/-- C94 fails: the level `P 2[1]* 3/2`, a pure 2P, gets minus a hundred times its Landé factor. -/
theorem C94_fails : ¬C94_full := by
  intro h
  have h1 := h fullWig fullWig_good.1 (fun _ => 1) pureLK (3/2) 1 1 0 (1/2) (by decide) rfl rfl (by norm_num) rfl rfl rfl rfl
    ⟨3, by norm_num⟩ ⟨2, by norm_num⟩ ⟨2, by norm_num⟩ ⟨0, by norm_num⟩ ⟨1, by norm_num⟩
  rw [C94_amplitudes_partial fullWig_good.1 (fun _ => 1) pureLK (3/2) 1 1 0 (1/2) (by decide) rfl (by norm_num) rfl rfl rfl rfl
    ⟨3, by norm_num⟩ ⟨2, by norm_num⟩ ⟨2, by norm_num⟩ ⟨0, by norm_num⟩ ⟨1, by norm_num⟩] at h1
  rw [show (arange |(0 : ℚ) - 1/2| (|(0 : ℚ) + 1/2| + 1)) = [1/2] by decide +kernel] at h1
  simp only [List.map_cons, List.map_nil, List.sum_cons, List.sum_nil, lk_pure, Except.ok.injEq, Option.some.injEq] at h1
  rw [show pureLK.percentage = 100 from rfl, show specLande (3/2) 1 (1/2) = 10023 / 30000 + 1 by unfold specLande; norm_num] at h1
  norm_num at h1

end AtomTk
