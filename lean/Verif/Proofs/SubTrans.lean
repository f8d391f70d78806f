import Verif.Model.SubTrans
import Verif.Proofs.Subs
import Verif.Props.Strengths

/-! # Populating subtransitions -/

namespace AtomTk
open Util Strengths

/-! ## The loop -/

section loop
variable {τ : Type _} {ok : Nat → Nat → Py Bool} {mk : Nat → Nat → Py τ} {al : τ → Types} {key : τ → Str × Str}

theorem Dict.mem_vals {κ α : Type _} [DecidableEq κ] {d : Dict κ α} (hn : d.keys.Nodup) (v : α) : v ∈ d.vals ↔ ∃ k, d.get? k = some v := by
  constructor
  · intro h
    obtain ⟨p, hp, rfl⟩ := List.mem_map.1 h
    exact ⟨p.1, Dict.get?_of_mem hn hp⟩
  · rintro ⟨k, h⟩
    exact List.mem_map.2 ⟨(k, v), Dict.mem_of_get? h, rfl⟩

theorem popSubs_ok (ps : List (Nat × Nat)) (h1 : ∀ p ∈ ps, ∃ g, ok p.1 p.2 = .ok g) (h2 : ∀ p ∈ ps, ∃ t, mk p.1 p.2 = .ok t)
    (d : Dict (Str × Str) τ) (hd : d.keys.Nodup) : ∃ d', popSubs ok mk al key ps d = .ok d' ∧ d'.keys.Nodup ∧
      (∀ k t, d'.get? k = some t → d.get? k = some t ∨ ∃ p ∈ ps, ok p.1 p.2 = .ok true ∧ mk p.1 p.2 = .ok t ∧ (al t).any = true ∧ key t = k) ∧
      (∀ k, (∃ t, d.get? k = some t) → ∃ t, d'.get? k = some t) ∧
      ∀ p ∈ ps, ∀ t, ok p.1 p.2 = .ok true → mk p.1 p.2 = .ok t → (al t).any = true → ∃ t', d'.get? (key t) = some t' := by
  induction ps generalizing d with
  | nil => exact ⟨d, rfl, hd, fun _ _ h => .inl h, fun _ h => h, by simp⟩
  | cons p ps ih =>
    have h1' : ∀ q ∈ ps, ∃ g, ok q.1 q.2 = .ok g := fun q hq => h1 q (by simp [hq])
    have h2' : ∀ q ∈ ps, ∃ t, mk q.1 q.2 = .ok t := fun q hq => h2 q (by simp [hq])
    obtain ⟨g, hg⟩ := h1 p (by simp)
    obtain ⟨t, ht⟩ := h2 p (by simp)
    obtain ⟨a, b⟩ := p
    simp only at hg ht
    have skip : (∀ x, ok a b = .ok true → mk a b = .ok x → (al x).any = true → False) →
        popSubs ok mk al key ((a, b) :: ps) d = popSubs ok mk al key ps d → ∃ d', popSubs ok mk al key ((a, b) :: ps) d = .ok d' ∧ d'.keys.Nodup ∧
        (∀ k t, d'.get? k = some t → d.get? k = some t ∨ ∃ p ∈ (a, b) :: ps, ok p.1 p.2 = .ok true ∧ mk p.1 p.2 = .ok t ∧ (al t).any = true ∧ key t = k) ∧
        (∀ k, (∃ t, d.get? k = some t) → ∃ t, d'.get? k = some t) ∧
        ∀ p ∈ (a, b) :: ps, ∀ t, ok p.1 p.2 = .ok true → mk p.1 p.2 = .ok t → (al t).any = true → ∃ t', d'.get? (key t) = some t' := by
      intro hf he
      obtain ⟨d', e1, e2, e3, e4, e5⟩ := ih h1' h2' d hd
      refine ⟨d', he.trans e1, e2, fun k x hx => ?_, e4, fun q hq x o1 o2 o3 => ?_⟩
      · rcases e3 k x hx with h | ⟨q, hq, h⟩
        · exact .inl h
        · exact .inr ⟨q, by simp [hq], h⟩
      · rcases List.mem_cons.1 hq with rfl | hq
        · exact (hf x o1 o2 o3).elim
        · exact e5 q hq x o1 o2 o3
    cases g with
    | false =>
      refine skip (fun x o1 _ _ => by rw [hg] at o1; simp at o1) ?_
      simp [popSubs, hg, bind, Except.bind]
    | true =>
      by_cases ha : (al t).any = true
      · obtain ⟨d', e1, e2, e3, e4, e5⟩ := ih h1' h2' (d.set (key t) t) (Dict.nodup_set hd _ _)
        refine ⟨d', ?_, e2, fun k x hx => ?_, fun k ⟨x, hx⟩ => e4 k ?_, fun q hq x o1 o2 o3 => ?_⟩
        · simp [popSubs, hg, ht, ha, bind, Except.bind, e1]
        · rcases e3 k x hx with h | ⟨q, hq, h⟩
          · rw [Dict.get?_set] at h
            split at h
            · rename_i hk
              cases h
              exact .inr ⟨(a, b), by simp, hg, ht, ha, hk⟩
            · exact .inl h
          · exact .inr ⟨q, by simp [hq], h⟩
        · rw [Dict.get?_set]
          split
          · exact ⟨_, rfl⟩
          · exact ⟨x, hx⟩
        · rcases List.mem_cons.1 hq with rfl | hq
          · rw [ht] at o2
            cases o2
            exact e4 _ ⟨t, by rw [Dict.get?_set, if_pos rfl]⟩
          · exact e5 q hq x o1 o2 o3
      · refine skip (fun x _ o2 o3 => by rw [ht] at o2; cases o2; exact ha o3) ?_
        simp [popSubs, hg, ht, ha, bind, Except.bind]

/-- With different keys for different pairs nothing is overwritten. -/
theorem popSubs_inj (ps : List (Nat × Nat)) (h1 : ∀ p ∈ ps, ∃ g, ok p.1 p.2 = .ok g) (h2 : ∀ p ∈ ps, ∃ t, mk p.1 p.2 = .ok t) :
    ∃ d, popSubs ok mk al key ps [] = .ok d ∧ d.keys.Nodup ∧
      (∀ k t, d.get? k = some t → ∃ p ∈ ps, ok p.1 p.2 = .ok true ∧ mk p.1 p.2 = .ok t ∧ (al t).any = true ∧ key t = k) ∧
      (∀ p ∈ ps, ∀ t, ok p.1 p.2 = .ok true → mk p.1 p.2 = .ok t → (al t).any = true → ∃ t', d.get? (key t) = some t') ∧
      ∀ p ∈ ps, ∀ t, ok p.1 p.2 = .ok true → mk p.1 p.2 = .ok t → (al t).any = true →
        (∀ q ∈ ps, ∀ t', mk q.1 q.2 = .ok t' → key t' = key t → q = p) → d.get? (key t) = some t := by
  obtain ⟨d, e1, e2, e3, e4, e5⟩ := popSubs_ok (al := al) (key := key) ps h1 h2 [] (by simp [Dict.keys])
  have e3' : ∀ k t, d.get? k = some t → ∃ p ∈ ps, ok p.1 p.2 = .ok true ∧ mk p.1 p.2 = .ok t ∧ (al t).any = true ∧ key t = k := by
    intro k t h
    rcases e3 k t h with h | h
    · simp [Dict.get?] at h
    · exact h
  refine ⟨d, e1, e2, e3', e5, fun p hp t o1 o2 o3 hi => ?_⟩
  obtain ⟨t', ht'⟩ := e5 p hp t o1 o2 o3
  obtain ⟨q, hq, -, m1, -, hk⟩ := e3' _ _ ht'
  obtain rfl := hi q hq t' m1 hk
  rw [o2] at m1
  cases m1
  exact ht'

end loop

theorem mem_product {α β : Type _} (xs : List α) (ys : List β) (a : α) (b : β) : (a, b) ∈ product xs ys ↔ a ∈ xs ∧ b ∈ ys := by
  unfold product
  simp [List.mem_flatMap, List.mem_map]

namespace World

/-! ## Sublevels and their numbers -/

/-- The invariants of the sublevels. -/
structure SubInv (w : World) : Prop where
  subs : SubsInv w
  made : MadeInv w
  keys : KeysInv w
  val : ValInv w

theorem _root_.AtomTk.Reachable.subInv {w : World} (h : Reachable w) : SubInv w := ⟨h.subsInv, h.madeInv, h.keysInv, h.valInv⟩

theorem SubInv.steps {C : World → Nat → ℚ → Prop} {w w' : World} (h : SubInv w) (hs : SSteps C w w') : SubInv w' :=
  ⟨h.subs.steps hs, h.made.steps h.subs hs, h.keys.steps hs, h.val.steps h.made h.subs hs⟩

theorem lazyHF_ok {w : World} (hk : KeysInv w) (hI : IsSpin w.I) {i : Nat} {J : ℚ} (hin : (w.lv i).inAtom = true)
    (hJ : (w.lv i).term.J = some J) (hs : IsSpin J) (hF : (w.lv i).term.F = none) :
    ∃ w', lazyHF i w = (w', .ok ()) ∧ (w'.lv i).subs.keys = (hfFs w.I J).map fKey ∧ ((w.lv i).subs ≠ [] → w' = w) := by
  by_cases h0 : (w.lv i).subs = []
  · obtain ⟨w1, h1, h2⟩ := popHFs_ok i J (hfFs w.I J) w hJ hF (fun f hf => (hfFs_spin hI hs hf).nonneg)
    refine ⟨w1, ?_, ?_, fun h => absurd h0 h⟩
    · unfold lazyHF populateHF
      simp only [h0, List.length_nil, if_true, hin, hJ]
      exact h1
    · rw [h2, keys_nil h0, addKeys_new _ _ (by simpa using hfKeys_nodup hI hs)]
      simp
  · refine ⟨w, ?_, (hk.hf hI i J hJ hs hF).resolve_left h0, fun _ => rfl⟩
    unfold lazyHF
    rw [if_neg (by simpa using h0)]

theorem lazyZ_ok {w : World} (hk : KeysInv w) {j : Nat} {J F : ℚ} (hJ : (w.hf j).term.J = some J)
    (hF : (w.hf j).term.F = some F) (hs : IsSpin F) :
    ∃ w', lazyZ j w = (w', .ok ()) ∧ (w'.hf j).subs.keys = (zMs F).map mKey ∧ ((w.hf j).subs ≠ [] → w' = w) := by
  by_cases h0 : (w.hf j).subs = []
  · obtain ⟨w1, h1, h2⟩ := popZs_ok j J F (zMs F) w hJ hF hs.nonneg
    refine ⟨w1, ?_, ?_, fun h => absurd h0 h⟩
    · unfold lazyZ
      simp only [h0, List.length_nil, if_true, hF]
      exact h1
    · rw [h2, keys_nil h0, addKeys_new _ _ (by simpa using zKeys_nodup hs)]
      simp
  · refine ⟨w, ?_, (hk.z j J F hJ hF hs).resolve_left h0, fun _ => rfl⟩
    unfold lazyZ
    rw [if_neg (by simpa using h0)]

/-- Hyperfine sublevel `j` of level `i` has the number `F`. -/
structure IsHyp (w : World) (i : Nat) (J : ℚ) (j : Nat) (F : ℚ) : Prop where
  mem : F ∈ hfFs w.I J
  get : (w.lv i).subs.get? (fKey F) = some j
  J : (w.hf j).term.J = some J
  F : (w.hf j).term.F = some F
  mF : (w.hf j).term.mF = none
  par : (w.hf j).parent = i
  lt : j < w.nhf

theorem IsHyp.short {w : World} {i j : Nat} {J F : ℚ} (h : IsHyp w i J j F) : (w.hf j).term.shortName = fKey F := by
  unfold Term.shortName
  rw [h.mF, h.F]; rfl

/-- The dictionary of a populated level lists its sublevels. -/
theorem hyp_of_get {w : World} (h : SubInv w) {i : Nat} {J : ℚ} (hJ : (w.lv i).term.J = some J) (hF : (w.lv i).term.F = none)
    {k : Str} {j : Nat} (hg : (w.lv i).subs.get? k = some j) : ∃ F, IsHyp w i J j F := by
  obtain ⟨h1, h2, F', h3, h4⟩ := h.subs.hfOf i k j hg
  obtain ⟨J', F, g1, g2, g3⟩ := h.val.hf j h1
  have e1 : (w.hf j).term.J = some J := by rw [h4]; exact hJ
  have e2 : (w.hf j).term.F = some F' := by rw [h4]; simp [Term.withF, hF]
  rw [g2] at e2; rw [g1] at e1
  cases e1; cases e2
  refine ⟨_, g3 (by rw [h2]; exact hF), by rw [← h3]; exact hg, g1, g2, by rw [h4]; rfl, h2, h1⟩

theorem hyp_vals {w : World} (h : SubInv w) (hI : IsSpin w.I) {i : Nat} {J : ℚ} (hJ : (w.lv i).term.J = some J) (hs : IsSpin J)
    (hF : (w.lv i).term.F = none) (j : Nat) : j ∈ (w.lv i).subs.vals ↔ ∃ F, IsHyp w i J j F := by
  have hn : (w.lv i).subs.keys.Nodup := by
    rcases h.keys.hf hI i J hJ hs hF with h0 | h0
    · rw [keys_nil h0]; simp
    · rw [h0]; exact hfKeys_nodup hI hs
  rw [Dict.mem_vals hn]
  constructor
  · rintro ⟨k, hk⟩
    exact hyp_of_get h hJ hF hk
  · rintro ⟨F, hF⟩
    exact ⟨_, hF.get⟩

theorem hyp_all {w : World} (h : SubInv w) {i : Nat} {J : ℚ} (hJ : (w.lv i).term.J = some J) (hI : IsSpin w.I) (hs : IsSpin J)
    (hF : (w.lv i).term.F = none) (hk : (w.lv i).subs.keys = (hfFs w.I J).map fKey) {F : ℚ} (hm : F ∈ hfFs w.I J) :
    ∃ j, IsHyp w i J j F := by
  obtain ⟨j, hj⟩ := (Dict.get?_isSome (w.lv i).subs (fKey F)).2 (by rw [hk]; exact List.mem_map.2 ⟨F, hm, rfl⟩)
  obtain ⟨F', hF'⟩ := hyp_of_get h hJ hF hj
  obtain ⟨g1, g2, F'', g3, g4⟩ := h.subs.hfOf i _ j hj
  have e : F'' = F' := by
    have := hF'.F
    rw [g4] at this
    simpa [Term.withF, hF] using this
  subst e
  have e : F = F'' := by
    have a := (hfFs_spin hI hs hm).isHalfInt
    have b := (hfFs_spin hI hs hF'.mem).isHalfInt
    exact fKey_inj a b g3
  subst e
  exact ⟨j, hF'⟩

theorem IsHyp.unique {w : World} {i j j' : Nat} {J J' F : ℚ} (h : IsHyp w i J j F) (h' : IsHyp w i J' j' F) : j = j' := by
  have := h.get
  rw [h'.get] at this
  cases this; rfl

/-- Zeeman sublevel `k` of hyperfine level `j` has the number `m`. -/
structure IsZee (w : World) (j : Nat) (F : ℚ) (k : Nat) (m : ℚ) : Prop where
  mem : m ∈ zMs F
  get : (w.hf j).subs.get? (mKey m) = some k
  F : (w.zl k).term.F = some F
  mF : (w.zl k).term.mF = some m
  par : (w.zl k).parent = j
  lt : k < w.nzl

theorem IsZee.short {w : World} {j k : Nat} {F m : ℚ} (h : IsZee w j F k m) : (w.zl k).term.shortName = mKey m := by
  unfold Term.shortName
  rw [h.mF]; rfl

theorem zee_of_get {w : World} (h : SubInv w) {j : Nat} {F : ℚ} (hF : (w.hf j).term.F = some F)
    {k : Str} {z : Nat} (hg : (w.hf j).subs.get? k = some z) : ∃ m, IsZee w j F z m := by
  obtain ⟨h1, h2, m', h3, h4⟩ := h.subs.zlOf j k z hg
  obtain ⟨J', F', m, g1, g2, g3, g4⟩ := h.val.z z h1
  have e1 : (w.zl z).term.F = some F := by rw [h4]; exact hF
  have e2 : (w.zl z).term.mF = some m' := by rw [h4]; rfl
  rw [g3] at e2; rw [g2] at e1
  cases e1; cases e2
  exact ⟨_, g4, by rw [← h3]; exact hg, g2, g3, h2, h1⟩

theorem zee_vals {w : World} (h : SubInv w) {j : Nat} {J F : ℚ} (hJ : (w.hf j).term.J = some J) (hF : (w.hf j).term.F = some F)
    (hs : IsSpin F) (z : Nat) : z ∈ (w.hf j).subs.vals ↔ ∃ m, IsZee w j F z m := by
  have hn : (w.hf j).subs.keys.Nodup := by
    rcases h.keys.z j J F hJ hF hs with h0 | h0
    · rw [keys_nil h0]; simp
    · rw [h0]; exact zKeys_nodup hs
  rw [Dict.mem_vals hn]
  constructor
  · rintro ⟨k, hk⟩
    exact zee_of_get h hF hk
  · rintro ⟨m, hm⟩
    exact ⟨_, hm.get⟩

theorem zee_all {w : World} (h : SubInv w) {j : Nat} {F : ℚ} (hF : (w.hf j).term.F = some F) (hs : IsSpin F)
    (hk : (w.hf j).subs.keys = (zMs F).map mKey) {m : ℚ} (hm : m ∈ zMs F) : ∃ z, IsZee w j F z m := by
  obtain ⟨z, hz⟩ := (Dict.get?_isSome (w.hf j).subs (mKey m)).2 (by rw [hk]; exact List.mem_map.2 ⟨m, hm, rfl⟩)
  obtain ⟨m', hm'⟩ := zee_of_get h hF hz
  obtain ⟨g1, g2, m'', g3, g4⟩ := h.subs.zlOf j _ z hz
  have e : m'' = m' := by
    have := hm'.mF
    rw [g4] at this
    simpa [Term.withM] using this
  subst e
  have e : m = m'' := mKey_inj (zMs_half hs hm) (zMs_half hs hm'.mem) g3
  subst e
  exact ⟨z, hm'⟩

end World

/-! ## Symbols of half-integers -/

namespace Strengths
open Racah

theorem floor_half (n : ℤ) : ⌊2 * half n⌋ = n := by
  unfold half
  rw [show (2 : ℚ) * (n / 2) = n by ring]
  exact Int.floor_intCast n

theorem half_of {q : ℚ} (h : IsHalfInt q) : ∃ n : ℤ, q = half n := h

theorem six_ok {W : Wig} (hW : W.Good) {a b c d e f : ℚ} (ha : IsHalfInt a) (hb : IsHalfInt b) (hc : IsHalfInt c)
    (hd : IsHalfInt d) (he : IsHalfInt e) (hf : IsHalfInt f) : W.w6j a b c d e f = .ok (six a b c d e f) := by
  obtain ⟨a, rfl⟩ := half_of ha; obtain ⟨b, rfl⟩ := half_of hb; obtain ⟨c, rfl⟩ := half_of hc
  obtain ⟨d, rfl⟩ := half_of hd; obtain ⟨e, rfl⟩ := half_of he; obtain ⟨f, rfl⟩ := half_of hf
  unfold six
  rw [w6j_half hW]
  simp only [floor_half]

theorem three_ok {W : Wig} (hW : W.Good) {a b c d e f : ℚ} (ha : IsHalfInt a) (hb : IsHalfInt b) (hc : IsHalfInt c)
    (hd : IsHalfInt d) (he : IsHalfInt e) (hf : IsHalfInt f) : W.w3j a b c d e f = .ok (three a b c d e f) := by
  obtain ⟨a, rfl⟩ := half_of ha; obtain ⟨b, rfl⟩ := half_of hb; obtain ⟨c, rfl⟩ := half_of hc
  obtain ⟨d, rfl⟩ := half_of hd; obtain ⟨e, rfl⟩ := half_of he; obtain ⟨f, rfl⟩ := half_of hf
  unfold three
  rw [w3j_half hW]
  simp only [floor_half]

theorem hi_one : IsHalfInt 1 := ⟨2, by norm_num⟩
theorem hi_two : IsHalfInt 2 := ⟨4, by norm_num⟩
theorem IsHalfInt.neg {q : ℚ} (h : IsHalfInt q) : IsHalfInt (-q) := by
  obtain ⟨n, rfl⟩ := h
  exact ⟨-n, by push_cast; ring⟩

/-- The same symbol in the two spellings of the code. -/
theorem six_spell (J1 F1 J2 F2 I k : ℚ) : six J2 F2 I F1 J1 k = six J1 J2 k F2 F1 I := by
  unfold six
  generalize ⌊2 * J1⌋ = a; generalize ⌊2 * J2⌋ = b; generalize ⌊2 * k⌋ = c; generalize ⌊2 * F2⌋ = d; generalize ⌊2 * F1⌋ = e
  generalize ⌊2 * I⌋ = f
  exact (w6_12 b d f e a c).symm.trans ((w6_23 d b f a e c).symm.trans ((w6_turn a c b d f e).trans (w6_23 a b c d e f)))

/-- Exchanging the two levels. -/
theorem six_swap (J1 F1 J2 F2 I k : ℚ) : six J1 J2 k F2 F1 I = six J2 J1 k F1 F2 I := by
  unfold six
  exact (w6_12 _ _ _ _ _ _).symm

/-- The strength of a hyperfine transition as the code computes it. -/
noncomputable def hStrength (al : Types) (I J1 F1 J2 F2 : ℚ) : ℝ :=
  if al.1 || al.2.1 then (((2 * F1 + 1) * (2 * F2 + 1) : ℚ) : ℝ) * six J1 J2 1 F2 F1 I ^ 2
  else if al.2.2 then (((2 * F1 + 1) * (2 * F2 + 1) : ℚ) : ℝ) * six J1 J2 2 F2 F1 I ^ 2
  else 0

/-- The types allowed between two hyperfine levels as the code computes them. -/
noncomputable def hTypes (al : Types) (I J1 F1 J2 F2 : ℚ) : Types :=
  (decide (six J1 J2 1 F2 F1 I ≠ 0) && al.1, decide (six J1 J2 1 F2 F1 I ≠ 0) && al.2.1, decide (six J1 J2 2 F2 F1 I ≠ 0) && al.2.2)

theorem hFactor_ok {W : Wig} (hW : W.Good) (al : Types) {I J1 F1 J2 F2 : ℚ} (hI : IsHalfInt I) (h1 : IsHalfInt J1) (h2 : IsHalfInt F1)
    (h3 : IsHalfInt J2) (h4 : IsHalfInt F2) : hFactor W al I J1 F1 J2 F2 = .ok (hStrength al I J1 F1 J2 F2) := by
  unfold hFactor hStrength
  rw [six_ok hW h3 h4 hI h2 h1 hi_one, six_ok hW h3 h4 hI h2 h1 hi_two, six_spell J1 F1 J2 F2 I 1, six_spell J1 F1 J2 F2 I 2]
  split
  · rfl
  · split <;> rfl

theorem hAllowed_ok {W : Wig} (hW : W.Good) (al : Types) {I J1 F1 J2 F2 : ℚ} (hI : IsHalfInt I) (h1 : IsHalfInt J1) (h2 : IsHalfInt F1)
    (h3 : IsHalfInt J2) (h4 : IsHalfInt F2) : hAllowed W al I J1 F1 J2 F2 = .ok (hTypes al I J1 F1 J2 F2) := by
  unfold hAllowed hTypes
  rw [six_ok hW h1 h3 hi_one h4 h2 hI, six_ok hW h1 h3 hi_two h4 h2 hI]
  rfl

/-- Sum over the projections, as numbers. -/
noncomputable def threeSum (n : Nat) (F1 k F2 m1 m2 : ℚ) (qs : List ℚ) : ℝ := (qs.map (fun q => three F1 k F2 (-m1) q m2 ^ n)).sum

theorem sum3j_ok {W : Wig} (hW : W.Good) (n : Nat) {F1 k F2 m1 m2 : ℚ} (h1 : IsHalfInt F1) (hk : IsHalfInt k) (h2 : IsHalfInt F2)
    (h3 : IsHalfInt m1) (h4 : IsHalfInt m2) (qs : List ℚ) (hq : ∀ q ∈ qs, IsHalfInt q) :
    sum3j W n F1 k F2 m1 m2 qs = .ok (threeSum n F1 k F2 m1 m2 qs) := by
  induction qs with
  | nil => rfl
  | cons q qs ih =>
    unfold sum3j
    rw [three_ok hW h1 hk h2 (IsHalfInt.neg h3) (hq q (by simp)) h4, ih (fun x hx => hq x (by simp [hx]))]
    rfl

theorem hi_qs1 : ∀ q ∈ qs1, IsHalfInt q := by
  intro q hq
  simp only [qs1, List.mem_cons, List.not_mem_nil, or_false] at hq
  rcases hq with rfl | rfl | rfl
  · exact ⟨-2, by norm_num⟩
  · exact ⟨0, by norm_num⟩
  · exact hi_one

theorem hi_qs2 : ∀ q ∈ qs2, IsHalfInt q := by
  intro q hq
  simp only [qs2, List.mem_cons, List.not_mem_nil, or_false] at hq
  rcases hq with rfl | rfl | rfl | rfl | rfl
  · exact ⟨-4, by norm_num⟩
  · exact ⟨-2, by norm_num⟩
  · exact ⟨0, by norm_num⟩
  · exact hi_one
  · exact hi_two

/-- The strength of a Zeeman transition as the code computes it. -/
noncomputable def zStrength (al : Types) (F1 m1 F2 m2 : ℚ) : ℝ :=
  if al.1 || al.2.1 then threeSum 2 F1 1 F2 m1 m2 qs1 else if al.2.2 then threeSum 2 F1 2 F1 m1 m2 qs2 else 0

/-- The types allowed between two Zeeman levels as the code computes them. -/
noncomputable def zTypes (al : Types) (F1 m1 F2 m2 : ℚ) : Types :=
  (decide (threeSum 1 F2 1 F1 m2 m1 qs1 ≠ 0) && al.1, decide (threeSum 1 F2 1 F1 m2 m1 qs1 ≠ 0) && al.2.1,
    decide (threeSum 1 F2 2 F1 m2 m1 qs2 ≠ 0) && al.2.2)

theorem zFactor_ok {W : Wig} (hW : W.Good) (al : Types) {F1 m1 F2 m2 : ℚ} (h1 : IsHalfInt F1) (h2 : IsHalfInt m1)
    (h3 : IsHalfInt F2) (h4 : IsHalfInt m2) : zFactor W al F1 m1 F2 m2 = .ok (zStrength al F1 m1 F2 m2) := by
  unfold zFactor zStrength
  rw [sum3j_ok hW 2 h1 hi_one h3 h2 h4 _ hi_qs1, sum3j_ok hW 2 h1 hi_two h1 h2 h4 _ hi_qs2]
  split
  · rfl
  · split <;> rfl

theorem zAllowed_ok {W : Wig} (hW : W.Good) (al : Types) {F1 m1 F2 m2 : ℚ} (h1 : IsHalfInt F1) (h2 : IsHalfInt m1)
    (h3 : IsHalfInt F2) (h4 : IsHalfInt m2) : zAllowed W al F1 m1 F2 m2 = .ok (zTypes al F1 m1 F2 m2) := by
  unfold zAllowed zTypes
  rw [sum3j_ok hW 1 h3 hi_one h1 h4 h2 _ hi_qs1, sum3j_ok hW 1 h3 hi_two h1 h4 h2 _ hi_qs2]
  rfl

end Strengths

namespace World
open Racah

/-! ## Building a hyperfine transition -/

/-- The energy of a hyperfine level from the constants. -/
def hypE (w : World) (i : Nat) (J F : ℚ) : ℚ :=
  w.eHz i + ((w.lv i).hfA * iDotJ w.I J F + (w.lv i).hfB * e2 w.I J F + (w.lv i).hfC * m3 w.I J F)

theorem IsHyp.energy {w : World} {i j : Nat} {J F : ℚ} (h : IsHyp w i J j F) : w.hHz j = .ok (w.hypE i J F) := by
  unfold hHz hShift
  rw [h.J, h.F, h.par]
  simp only [hfShift_ok]
  rfl

/-- The transition between two hyperfine levels. -/
noncomputable def mkHTr (w : World) (t a b : Nat) (J1 F1 J2 F2 : ℚ) : HTr where
  parent := t
  e1 := a
  e2 := b
  lower := if w.hypE (w.tr t).e2 J2 F2 > w.hypE (w.tr t).e1 J1 F1 then a else b
  upper := if w.hypE (w.tr t).e2 J2 F2 > w.hypE (w.tr t).e1 J1 F1 then b else a
  A := (w.tr t).A.map (fun A => (A : ℝ) * hStrength (w.tr t).allowed w.I J1 F1 J2 F2)
  rel := match (w.tr t).A with
    | none => 1
    | some _ => hStrength (w.tr t).allowed w.I J1 F1 J2 F2
  allowed := hTypes (w.tr t).allowed w.I J1 F1 J2 F2

theorem newHTr_ok {W : Wig} (hW : W.Good) {w : World} {t a b : Nat} {J1 F1 J2 F2 : ℚ} (hI : IsSpin w.I) (s1 : IsSpin J1) (s2 : IsSpin J2)
    (h1 : IsHyp w (w.tr t).e1 J1 a F1) (h2 : IsHyp w (w.tr t).e2 J2 b F2) : w.newHTr W t a b = .ok (w.mkHTr t a b J1 F1 J2 F2) := by
  unfold newHTr
  have f1 := (hfFs_spin hI s1 h1.mem).isHalfInt
  have f2 := (hfFs_spin hI s2 h2.mem).isHalfInt
  rw [h1.energy, h2.energy, h1.J, h1.F, h2.J, h2.F]
  simp only [hFactor_ok hW _ hI.isHalfInt s1.isHalfInt f1 s2.isHalfInt f2, hAllowed_ok hW _ hI.isHalfInt s1.isHalfInt f1 s2.isHalfInt f2]
  unfold mkHTr
  cases (w.tr t).A <;> rfl

/-- The two levels of a transition are in the atom and have quantum numbers. -/
structure SubReady (w : World) (t : Nat) (J1 J2 : ℚ) : Prop where
  hI : IsSpin w.I
  in1 : (w.lv (w.tr t).e1).inAtom = true
  in2 : (w.lv (w.tr t).e2).inAtom = true
  hJ1 : (w.lv (w.tr t).e1).term.J = some J1
  hJ2 : (w.lv (w.tr t).e2).term.J = some J2
  s1 : IsSpin J1
  s2 : IsSpin J2
  F1 : (w.lv (w.tr t).e1).term.F = none
  F2 : (w.lv (w.tr t).e2).term.F = none

theorem LFrame.term {w w' : World} (h : LFrame w w') (i : Nat) : (w'.lv i).term = (w.lv i).term := by
  obtain ⟨s, hs⟩ := h.lv i
  rw [hs]

theorem LFrame.inAtom {w w' : World} (h : LFrame w w') (i : Nat) : (w'.lv i).inAtom = (w.lv i).inAtom := by
  obtain ⟨s, hs⟩ := h.lv i
  rw [hs]

theorem LFrame.eHz {w w' : World} (h : LFrame w w') (i : Nat) : w'.eHz i = w.eHz i := by
  obtain ⟨s, hs⟩ := h.lv i
  unfold World.eHz
  rw [hs]

theorem LFrame.hypE {w w' : World} (h : LFrame w w') (i : Nat) (J F : ℚ) : w'.hypE i J F = w.hypE i J F := by
  unfold World.hypE
  rw [h.eHz, h.I]
  obtain ⟨s, hs⟩ := h.lv i
  rw [hs]

theorem SubReady.frame {w w' : World} {t : Nat} {J1 J2 : ℚ} (h : SubReady w t J1 J2) (hf : LFrame w w') : SubReady w' t J1 J2 := by
  refine ⟨by rw [hf.I]; exact h.hI, ?_, ?_, ?_, ?_, h.s1, h.s2, ?_, ?_⟩
  · rw [hf.tr, hf.inAtom]; exact h.in1
  · rw [hf.tr, hf.inAtom]; exact h.in2
  · rw [hf.tr, hf.term]; exact h.hJ1
  · rw [hf.tr, hf.term]; exact h.hJ2
  · rw [hf.tr, hf.term]; exact h.F1
  · rw [hf.tr, hf.term]; exact h.F2

theorem hfFs_ne {I J : ℚ} (hI : IsSpin I) (hJ : IsSpin J) : hfFs I J ≠ [] := by
  obtain ⟨n, h1, h2⟩ := spin_count hI hJ
  intro h
  have := arange_length (a := |J - I|) (b := J + I + 1) (n := n) h1
  unfold hfFs at h
  rw [h] at this
  simp at this
  subst this
  have h0 := abs_sub_abs_le_abs_sub J I
  have h3 := hI.nonneg
  have h4 := hJ.nonneg
  have h5 : |J - I| ≤ J + I := by
    rw [abs_le]; constructor <;> linarith
  simp at h1
  linarith

theorem assertSubs_ok {w : World} (h : SubInv w) (hI : IsSpin w.I) {i : Nat} {J : ℚ} (hin : (w.lv i).inAtom = true)
    (hJ : (w.lv i).term.J = some J) (hs : IsSpin J) (hF : (w.lv i).term.F = none) :
    ∃ w', assertSubs i w = (w', .ok ()) ∧ LFrame w w' ∧ SubInv w' ∧ (w'.lv i).subs.keys = (hfFs w.I J).map fKey ∧
      ((w.lv i).subs ≠ [] → w' = w) := by
  obtain ⟨w', h1, h2, h3⟩ := lazyHF_ok h.keys hI hin hJ hs hF
  have hfr : LFrame w w' := by
    have := lazyHF_frame i w
    rwa [h1] at this
  have hin : SubInv w' := by
    have := h.steps (lazyHF_steps (C := fun _ _ _ => True) i w)
    rwa [h1] at this
  refine ⟨w', ?_, hfr, hin, h2, h3⟩
  unfold assertSubs
  rw [PyM.bind_ok h1, PyM.bind_ok (show PyM.get w' = (w', .ok w') from rfl), if_neg]
  · rfl
  · intro h0
    have h0 : (w'.lv i).subs = [] := by simpa using h0
    rw [keys_nil h0] at h2
    have : hfFs w.I J = [] := by simpa using h2.symm
    exact hfFs_ne hI hs this

/-- Keys stay when another level is populated. -/
theorem assertSubs_keep {w w' : World} {i k : Nat} {J : ℚ} (h : SubInv w') (hf : LFrame w w') (hI : IsSpin w.I)
    (hJ : (w.lv k).term.J = some J) (hs : IsSpin J) (hF : (w.lv k).term.F = none)
    (hk : (w.lv k).subs.keys = (hfFs w.I J).map fKey) (he : assertSubs i w = (w', .ok ())) :
    (w'.lv k).subs.keys = (hfFs w'.I J).map fKey := by
  have hI' : IsSpin w'.I := by rw [hf.I]; exact hI
  rcases h.keys.hf hI' k J (by rw [hf.term]; exact hJ) hs (by rw [hf.term]; exact hF) with h0 | h0
  · exfalso
    have hne : (w.lv k).subs ≠ [] := by
      intro h1
      rw [keys_nil h1] at hk
      have : hfFs w.I J = [] := by simpa using hk.symm
      exact hfFs_ne hI hs this
    have key : ∀ w : World, (w.lv k).subs ≠ [] → ((lazyHF i w).1.lv k).subs ≠ [] := by
      intro w hw
      unfold lazyHF populateHF
      split
      · split
        · split
          · refine popHFs_inv (fun w1 => (w1.lv k).subs ≠ []) i (fun w1 _ _ f g hw1 _ _ _ => ?_) _ w hw
            simp only [popHF1']
            by_cases hki : k = i
            · subst hki
              rw [upd_same]
              simp only
              intro h2
              have := keys_nil h2
              rw [Dict.keys_set] at this
              split at this
              · rename_i hm
                rw [this] at hm
                simp at hm
              · simp at this
            · rw [upd_ne _ _ _ hki]; exact hw1
          · exact hw
        · exact hw
      · exact hw
    have hk2 := key w hne
    have : w' = (lazyHF i w).1 := by
      unfold assertSubs at he
      rcases hr : lazyHF i w with ⟨w1, r⟩
      cases r with
      | error e =>
        rw [PyM.bind_err hr] at he
        exact absurd (congrArg Prod.snd he) (by simp)
      | ok u =>
        rw [PyM.bind_ok hr, PyM.bind_ok (show PyM.get w1 = (w1, .ok w1) from rfl)] at he
        split at he
        · exact absurd (congrArg Prod.snd he) (by simp [PyM.raise])
        · exact (congrArg Prod.fst he).symm
    rw [this] at h0
    exact hk2 h0
  · exact h0

/-- What the lazily computed subtransitions of a transition are. -/
theorem hSubs_spec {W : Wig} (hW : W.Good) {w : World} (h : SubInv w) {t : Nat} {J1 J2 : ℚ} (hr : SubReady w t J1 J2) :
    ∃ w' d, hSubs W t [] w = (w', .ok d) ∧ LFrame w w' ∧ SubInv w' ∧ SubReady w' t J1 J2 ∧ d.keys.Nodup ∧
      (w'.lv (w'.tr t).e1).subs.keys = (hfFs w'.I J1).map fKey ∧ (w'.lv (w'.tr t).e2).subs.keys = (hfFs w'.I J2).map fKey ∧
      (∀ k x, d.get? k = some x → ∃ a b F1 F2, IsHyp w' (w'.tr t).e1 J1 a F1 ∧ IsHyp w' (w'.tr t).e2 J2 b F2 ∧
        pairOk (w'.tr t).allowed (some F1) (some F2) = .ok true ∧ x = w'.mkHTr t a b J1 F1 J2 F2 ∧ x.allowed.any = true ∧ w'.hKey x = k) ∧
      (∀ a b F1 F2, IsHyp w' (w'.tr t).e1 J1 a F1 → IsHyp w' (w'.tr t).e2 J2 b F2 →
        pairOk (w'.tr t).allowed (some F1) (some F2) = .ok true → (w'.mkHTr t a b J1 F1 J2 F2).allowed.any = true →
        (∃ x', d.get? (w'.hKey (w'.mkHTr t a b J1 F1 J2 F2)) = some x') ∧
        ((∀ a' b' F1' F2', IsHyp w' (w'.tr t).e1 J1 a' F1' → IsHyp w' (w'.tr t).e2 J2 b' F2' →
          w'.hKey (w'.mkHTr t a' b' J1 F1' J2 F2') = w'.hKey (w'.mkHTr t a b J1 F1 J2 F2) → a' = a ∧ b' = b) →
          d.get? (w'.hKey (w'.mkHTr t a b J1 F1 J2 F2)) = some (w'.mkHTr t a b J1 F1 J2 F2))) := by
  obtain ⟨w1, a1, a2, a3, a4, -⟩ := assertSubs_ok h hr.hI hr.in1 hr.hJ1 hr.s1 hr.F1
  have hr1 := hr.frame a2
  have e2 : (w1.tr t).e2 = (w.tr t).e2 := by rw [a2.tr]
  have e1 : (w1.tr t).e1 = (w.tr t).e1 := by rw [a2.tr]
  obtain ⟨w2, b1, b2, b3, b4, -⟩ := assertSubs_ok a3 hr1.hI hr1.in2 hr1.hJ2 hr1.s2 hr1.F2
  have hr2 := hr1.frame b2
  have b5 := assertSubs_keep b3 b2 hr1.hI hr1.hJ1 hr1.s1 hr1.F1 (by rw [e1, a2.I]; exact a4) b1
  have k1 : (w2.lv (w2.tr t).e1).subs.keys = (hfFs w2.I J1).map fKey := by rw [b2.tr]; exact b5
  have k2 : (w2.lv (w2.tr t).e2).subs.keys = (hfFs w2.I J2).map fKey := by rw [b2.tr, b2.I]; exact b4
  have v1 := hyp_vals b3 hr2.hI hr2.hJ1 hr2.s1 hr2.F1
  have v2 := hyp_vals b3 hr2.hI hr2.hJ2 hr2.s2 hr2.F2
  have m1 : ∀ p ∈ product (w2.lv (w2.tr t).e1).subs.vals (w2.lv (w2.tr t).e2).subs.vals, ∃ F1 F2, IsHyp w2 (w2.tr t).e1 J1 p.1 F1 ∧
      IsHyp w2 (w2.tr t).e2 J2 p.2 F2 := by
    rintro ⟨a, b⟩ hp
    rw [mem_product, v1, v2] at hp
    obtain ⟨⟨F1, h1⟩, F2, h2⟩ := hp
    exact ⟨F1, F2, h1, h2⟩
  have mm : ∀ a b F1 F2, IsHyp w2 (w2.tr t).e1 J1 a F1 → IsHyp w2 (w2.tr t).e2 J2 b F2 →
      (a, b) ∈ product (w2.lv (w2.tr t).e1).subs.vals (w2.lv (w2.tr t).e2).subs.vals := by
    intro a b F1 F2 h1 h2
    rw [mem_product, v1, v2]
    exact ⟨⟨F1, h1⟩, F2, h2⟩
  have pok : ∀ al F1 F2, ∃ g, pairOk al (some F1) (some F2) = .ok g := by
    intro al F1 F2
    unfold pairOk
    cases maxDelta al <;> exact ⟨_, rfl⟩
  obtain ⟨d, p1, p2, p3, p4, p5⟩ := popSubs_inj (ok := fun a b => pairOk (w2.tr t).allowed (w2.hf a).term.F (w2.hf b).term.F)
    (mk := w2.newHTr W t) (al := HTr.allowed) (key := w2.hKey)
    (product (w2.lv (w2.tr t).e1).subs.vals (w2.lv (w2.tr t).e2).subs.vals)
    (by
      intro p hp
      obtain ⟨F1, F2, h1, h2⟩ := m1 p hp
      rw [h1.F, h2.F]; exact pok _ _ _)
    (by
      intro p hp
      obtain ⟨F1, F2, h1, h2⟩ := m1 p hp
      exact ⟨w2.mkHTr t p.1 p.2 J1 F1 J2 F2, newHTr_ok hW hr2.hI hr2.s1 hr2.s2 h1 h2⟩)
  refine ⟨w2, d, ?_, LFrame.trans _ _ _ a2 b2, b3, hr2, p2, k1, k2, ?_, ?_⟩
  · unfold hSubs
    show (PyM.get >>= _) w = _
    rw [PyM.bind_ok (show PyM.get w = (w, .ok w) from rfl), PyM.bind_ok a1, ← e2, PyM.bind_ok b1,
      PyM.bind_ok (show PyM.get w2 = (w2, .ok w2) from rfl)]
    unfold PyM.lift popHTrs
    rw [p1]
  · intro k x hx
    obtain ⟨⟨a, b⟩, hp, o1, o2, o3, o4⟩ := p3 k x hx
    obtain ⟨F1, F2, h1, h2⟩ := m1 _ hp
    simp only at h1 h2 o1 o2
    rw [h1.F, h2.F] at o1
    rw [newHTr_ok hW hr2.hI hr2.s1 hr2.s2 h1 h2] at o2
    cases o2
    exact ⟨a, b, F1, F2, h1, h2, o1, rfl, o3, o4⟩
  · intro a b F1 F2 h1 h2 o1 o3
    have hp := mm a b F1 F2 h1 h2
    have o1' : pairOk (w2.tr t).allowed (w2.hf a).term.F (w2.hf b).term.F = .ok true := by rw [h1.F, h2.F]; exact o1
    have o2 := newHTr_ok hW hr2.hI hr2.s1 hr2.s2 h1 h2
    refine ⟨p4 (a, b) hp _ o1' o2 o3, fun hi => p5 (a, b) hp _ o1' o2 o3 ?_⟩
    rintro ⟨a', b'⟩ hq x' hx' hk
    obtain ⟨F1', F2', h1', h2'⟩ := m1 _ hq
    simp only at h1' h2' hx'
    rw [newHTr_ok hW hr2.hI hr2.s1 hr2.s2 h1' h2'] at hx'
    cases hx'
    obtain ⟨g1, g2⟩ := hi a' b' F1' F2' h1' h2' hk
    rw [g1, g2]

/-! ## Building a Zeeman transition -/

/-- The energy of a Zeeman level from the constants. -/
def zeeE (w : World) (i : Nat) (J F : ℚ) (k : Nat) (m : ℚ) : ℚ := w.hypE i J F + zShift (w.zl k).gF m (w.zl k).quad w.B

/-- The two hyperfine levels of a transition and their numbers. -/
structure ZReady (w : World) (x : HTr) (i1 i2 : Nat) (J1 F1 J2 F2 : ℚ) : Prop where
  lt1 : x.e1 < w.nhf
  lt2 : x.e2 < w.nhf
  hJ1 : (w.hf x.e1).term.J = some J1
  hJ2 : (w.hf x.e2).term.J = some J2
  hF1 : (w.hf x.e1).term.F = some F1
  hF2 : (w.hf x.e2).term.F = some F2
  p1 : (w.hf x.e1).parent = i1
  p2 : (w.hf x.e2).parent = i2
  s1 : IsSpin F1
  s2 : IsSpin F2

theorem ZReady.frame {w w' : World} {x : HTr} {i1 i2 : Nat} {J1 F1 J2 F2 : ℚ} (h : ZReady w x i1 i2 J1 F1 J2 F2) (hf : LFrame w w') :
    ZReady w' x i1 i2 J1 F1 J2 F2 := by
  obtain ⟨s, hs⟩ := hf.hf _ h.lt1
  obtain ⟨s', hs'⟩ := hf.hf _ h.lt2
  exact ⟨lt_of_lt_of_le h.lt1 hf.nhf, lt_of_lt_of_le h.lt2 hf.nhf, by rw [hs]; exact h.hJ1, by rw [hs']; exact h.hJ2,
    by rw [hs]; exact h.hF1, by rw [hs']; exact h.hF2, by rw [hs]; exact h.p1, by rw [hs']; exact h.p2, h.s1, h.s2⟩

theorem zee_energy {w : World} {i j k : Nat} {J F m : ℚ} (hJ : (w.hf j).term.J = some J) (hF : (w.hf j).term.F = some F)
    (hp : (w.hf j).parent = i) (h : IsZee w j F k m) : w.zHz k = .ok (w.zeeE i J F k m) := by
  unfold zHz zShiftHz hHz hShift
  rw [h.par, hJ, hF, hp, h.mF]
  simp only [hfShift_ok]
  rfl

/-- The transition between two Zeeman levels. -/
noncomputable def mkZTr (w : World) (x : HTr) (i1 i2 a b : Nat) (J1 F1 m1 J2 F2 m2 : ℚ) : ZTr where
  parent := x
  e1 := a
  e2 := b
  lower := if w.zeeE i2 J2 F2 b m2 > w.zeeE i1 J1 F1 a m1 then a else b
  upper := if w.zeeE i2 J2 F2 b m2 > w.zeeE i1 J1 F1 a m1 then b else a
  A := x.A.map (fun A => A * zStrength x.allowed F1 m1 F2 m2)
  rel := match x.A with
    | none => 1
    | some _ => zStrength x.allowed F1 m1 F2 m2
  allowed := zTypes x.allowed F1 m1 F2 m2

theorem newZTr_ok {W : Wig} (hW : W.Good) {w : World} {x : HTr} {i1 i2 a b : Nat} {J1 F1 m1 J2 F2 m2 : ℚ} (h : ZReady w x i1 i2 J1 F1 J2 F2)
    (h1 : IsZee w x.e1 F1 a m1) (h2 : IsZee w x.e2 F2 b m2) : w.newZTr W x a b = .ok (w.mkZTr x i1 i2 a b J1 F1 m1 J2 F2 m2) := by
  unfold newZTr
  have f1 := zMs_half h.s1 h1.mem
  have f2 := zMs_half h.s2 h2.mem
  rw [zee_energy h.hJ1 h.hF1 h.p1 h1, zee_energy h.hJ2 h.hF2 h.p2 h2, h1.F, h1.mF, h2.F, h2.mF]
  simp only [zFactor_ok hW _ h.s1.isHalfInt f1 h.s2.isHalfInt f2, zAllowed_ok hW _ h.s1.isHalfInt f1 h.s2.isHalfInt f2]
  unfold mkZTr
  cases x.A <;> rfl

theorem zMs_ne {F : ℚ} (hF : IsSpin F) : zMs F ≠ [] := by
  obtain ⟨n, h1, h2⟩ := spin_count_m hF
  intro h
  have := arange_length (a := -F) (b := F + 1) (n := n) h1
  unfold zMs at h
  rw [h] at this
  simp at this
  subst this
  have := hF.nonneg
  simp at h1
  linarith

theorem assertZs_ok {w : World} (h : SubInv w) {j : Nat} {J F : ℚ} (hJ : (w.hf j).term.J = some J)
    (hF : (w.hf j).term.F = some F) (hs : IsSpin F) :
    ∃ w', assertZs j w = (w', .ok ()) ∧ LFrame w w' ∧ SubInv w' ∧ (w'.hf j).subs.keys = (zMs F).map mKey := by
  obtain ⟨w', h1, h2, h3⟩ := lazyZ_ok h.keys hJ hF hs
  have hfr : LFrame w w' := by
    have := lazyZ_frame j w
    rwa [h1] at this
  have hin : SubInv w' := by
    have := h.steps (lazyZ_steps (C := fun _ _ _ => True) j w)
    rwa [h1] at this
  refine ⟨w', ?_, hfr, hin, h2⟩
  unfold assertZs
  rw [PyM.bind_ok h1, PyM.bind_ok (show PyM.get w' = (w', .ok w') from rfl), if_neg]
  · rfl
  · intro h0
    have h0 : (w'.hf j).subs = [] := by simpa using h0
    rw [keys_nil h0] at h2
    have : zMs F = [] := by simpa using h2.symm
    exact zMs_ne hs this

theorem lazyZ_nonempty (j k : Nat) (w : World) (hw : (w.hf k).subs ≠ []) : ((lazyZ j w).1.hf k).subs ≠ [] := by
  unfold lazyZ
  split
  · split
    · refine popZs_inv (fun w1 => (w1.hf k).subs ≠ []) j (fun w1 _ _ f g hw1 _ _ _ => ?_) _ w hw
      simp only [popZ1']
      by_cases hki : k = j
      · subst hki
        rw [upd_same]
        simp only
        intro h2
        have := keys_nil h2
        rw [Dict.keys_set] at this
        split at this
        · rename_i hm
          rw [this] at hm
          simp at hm
        · simp at this
      · rw [upd_ne _ _ _ hki]; exact hw1
    · exact hw
  · exact hw

theorem assertZs_keep {w w' : World} {j k : Nat} {J F : ℚ} (h : SubInv w') (hJ : (w'.hf k).term.J = some J)
    (hF : (w'.hf k).term.F = some F) (hs : IsSpin F) (hk : (w.hf k).subs.keys = (zMs F).map mKey) (he : assertZs j w = (w', .ok ())) :
    (w'.hf k).subs.keys = (zMs F).map mKey := by
  refine (h.keys.z k J F hJ hF hs).resolve_left ?_
  have hne : (w.hf k).subs ≠ [] := by
    intro h1
    rw [keys_nil h1] at hk
    have : zMs F = [] := by simpa using hk.symm
    exact zMs_ne hs this
  have hk2 := lazyZ_nonempty j k w hne
  have : w' = (lazyZ j w).1 := by
    unfold assertZs at he
    rcases hr : lazyZ j w with ⟨w1, r⟩
    cases r with
    | error e =>
      rw [PyM.bind_err hr] at he
      exact absurd (congrArg Prod.snd he) (by simp)
    | ok u =>
      rw [PyM.bind_ok hr, PyM.bind_ok (show PyM.get w1 = (w1, .ok w1) from rfl)] at he
      split at he
      · exact absurd (congrArg Prod.snd he) (by simp [PyM.raise])
      · exact (congrArg Prod.fst he).symm
  rw [this]
  exact hk2

/-- What the lazily computed subtransitions of a hyperfine transition are. -/
theorem zSubs_spec {W : Wig} (hW : W.Good) {w : World} (h : SubInv w) {x : HTr} {i1 i2 : Nat} {J1 F1 J2 F2 : ℚ}
    (hr : ZReady w x i1 i2 J1 F1 J2 F2) :
    ∃ w' d, zSubs W x [] w = (w', .ok d) ∧ LFrame w w' ∧ SubInv w' ∧ ZReady w' x i1 i2 J1 F1 J2 F2 ∧ d.keys.Nodup ∧
      (w'.hf x.e1).subs.keys = (zMs F1).map mKey ∧ (w'.hf x.e2).subs.keys = (zMs F2).map mKey ∧
      (∀ k y, d.get? k = some y → ∃ a b m1 m2, IsZee w' x.e1 F1 a m1 ∧ IsZee w' x.e2 F2 b m2 ∧
        pairOk x.allowed (some m1) (some m2) = .ok true ∧ y = w'.mkZTr x i1 i2 a b J1 F1 m1 J2 F2 m2 ∧ y.allowed.any = true ∧
        w'.zKey y = k) ∧
      (∀ a b m1 m2, IsZee w' x.e1 F1 a m1 → IsZee w' x.e2 F2 b m2 →
        pairOk x.allowed (some m1) (some m2) = .ok true → (w'.mkZTr x i1 i2 a b J1 F1 m1 J2 F2 m2).allowed.any = true →
        (∃ y', d.get? (w'.zKey (w'.mkZTr x i1 i2 a b J1 F1 m1 J2 F2 m2)) = some y') ∧
        ((∀ a' b' m1' m2', IsZee w' x.e1 F1 a' m1' → IsZee w' x.e2 F2 b' m2' →
          w'.zKey (w'.mkZTr x i1 i2 a' b' J1 F1 m1' J2 F2 m2') = w'.zKey (w'.mkZTr x i1 i2 a b J1 F1 m1 J2 F2 m2) → a' = a ∧ b' = b) →
          d.get? (w'.zKey (w'.mkZTr x i1 i2 a b J1 F1 m1 J2 F2 m2)) = some (w'.mkZTr x i1 i2 a b J1 F1 m1 J2 F2 m2))) := by
  obtain ⟨w1, a1, a2, a3, a4⟩ := assertZs_ok h hr.hJ1 hr.hF1 hr.s1
  have hr1 := hr.frame a2
  obtain ⟨w2, b1, b2, b3, b4⟩ := assertZs_ok a3 hr1.hJ2 hr1.hF2 hr1.s2
  have hr2 := hr1.frame b2
  have b5 := assertZs_keep b3 hr2.hJ1 hr2.hF1 hr2.s1 a4 b1
  have v1 := zee_vals b3 hr2.hJ1 hr2.hF1 hr2.s1
  have v2 := zee_vals b3 hr2.hJ2 hr2.hF2 hr2.s2
  have m1 : ∀ p ∈ product (w2.hf x.e1).subs.vals (w2.hf x.e2).subs.vals, ∃ m1 m2, IsZee w2 x.e1 F1 p.1 m1 ∧
      IsZee w2 x.e2 F2 p.2 m2 := by
    rintro ⟨a, b⟩ hp
    rw [mem_product, v1, v2] at hp
    obtain ⟨⟨F1, h1⟩, F2, h2⟩ := hp
    exact ⟨F1, F2, h1, h2⟩
  have mm : ∀ a b m1 m2, IsZee w2 x.e1 F1 a m1 → IsZee w2 x.e2 F2 b m2 →
      (a, b) ∈ product (w2.hf x.e1).subs.vals (w2.hf x.e2).subs.vals := by
    intro a b F1 F2 h1 h2
    rw [mem_product, v1, v2]
    exact ⟨⟨F1, h1⟩, F2, h2⟩
  have pok : ∀ al F1 F2, ∃ g, pairOk al (some F1) (some F2) = .ok g := by
    intro al F1 F2
    unfold pairOk
    cases maxDelta al <;> exact ⟨_, rfl⟩
  obtain ⟨d, p1, p2, p3, p4, p5⟩ := popSubs_inj (ok := fun a b => pairOk x.allowed (w2.zl a).term.mF (w2.zl b).term.mF)
    (mk := w2.newZTr W x) (al := ZTr.allowed) (key := w2.zKey)
    (product (w2.hf x.e1).subs.vals (w2.hf x.e2).subs.vals)
    (by
      intro p hp
      obtain ⟨m1, m2, h1, h2⟩ := m1 p hp
      rw [h1.mF, h2.mF]; exact pok _ _ _)
    (by
      intro p hp
      obtain ⟨m1, m2, h1, h2⟩ := m1 p hp
      exact ⟨_, newZTr_ok hW hr2 h1 h2⟩)
  refine ⟨w2, d, ?_, LFrame.trans _ _ _ a2 b2, b3, hr2, p2, b5, b4, ?_, ?_⟩
  · unfold zSubs
    show (assertZs x.e1 >>= _) w = _
    rw [PyM.bind_ok a1, PyM.bind_ok b1, PyM.bind_ok (show PyM.get w2 = (w2, .ok w2) from rfl)]
    unfold PyM.lift popZTrs
    rw [p1]
  · intro k y hy
    obtain ⟨⟨a, b⟩, hp, o1, o2, o3, o4⟩ := p3 k y hy
    obtain ⟨m1, m2, h1, h2⟩ := m1 _ hp
    simp only at h1 h2 o1 o2
    rw [h1.mF, h2.mF] at o1
    rw [newZTr_ok hW hr2 h1 h2] at o2
    cases o2
    exact ⟨a, b, m1, m2, h1, h2, o1, rfl, o3, o4⟩
  · intro a b F1 F2 h1 h2 o1 o3
    have hp := mm a b F1 F2 h1 h2
    have o1' : pairOk x.allowed (w2.zl a).term.mF (w2.zl b).term.mF = .ok true := by rw [h1.mF, h2.mF]; exact o1
    have o2 := newZTr_ok hW hr2 h1 h2
    refine ⟨p4 (a, b) hp _ o1' o2 o3, fun hi => p5 (a, b) hp _ o1' o2 o3 ?_⟩
    rintro ⟨a', b'⟩ hq x' hx' hk
    obtain ⟨F1', F2', h1', h2'⟩ := m1 _ hq
    simp only at h1' h2' hx'
    rw [newZTr_ok hW hr2 h1' h2'] at hx'
    cases hx'
    obtain ⟨g1, g2⟩ := hi a' b' F1' F2' h1' h2' hk
    rw [g1, g2]

end World
end AtomTk
