import Verif.Props.LinkedZ

/-! # Sublevels with a decay whose rate is not known (C101, C102, C108, C109)

A transition made without `A` gives its hyperfine and Zeeman transitions no rate either; asking for lifetimes and branching ratios
of the sublevels above it raises. -/

namespace AtomTk
open Util World Strengths

theorem coeffs_none (e : PyErr) : ∀ l : List (Option ℝ), none ∈ l → coeffs e l = .error e
  | [], h => by simp at h
  | none :: l, _ => rfl
  | some a :: l, h => by
    unfold coeffs
    rw [coeffs_none e l (by simpa using h)]
    rfl

/-- C101: if a transition down from a level to a hyperfine level near enough has no rate, the lifetime raises `TypeError`. -/
theorem C101_missing {W : Wig} (hW : W.Good) {w : World} (hr : Reachable w) {i : Nat} {J F : ℚ} (h : HfReady w i J F)
    (hd : Directed w i J F) {H : Rows HTr} (hH : H.Fits w i F) {m : Str} {t j : Nat} {J' F' : ℚ} (q : Link w i F m t j J' F')
    (hu : (w.tr t).upper = i) (hA : (w.tr t).A = none) : (hypLifetime W H (hypText (w.lname i) F) w).2 = .error .TypeError := by
  obtain ⟨w', H', d, a0, h1, h2, h3, h4, h5, h6, h7, h8, h9⟩ := linkedHyp_spec hW hr h hH
  obtain ⟨b, hb⟩ := h7 m t j J' q.ne q.adj q.lev q.J F' q.mem
  have hx : d.get? (hypText m F') = some (w'.linkTr i t a0 b J F J' F') := (h6 _ _).2 ⟨m, t, j, J', F', b, q, rfl, hb, rfl⟩
  have c := coeffs_none .TypeError ((d.vals.filter (fun x => Ref.hyp x.upper = Ref.hyp a0)).map HTr.A) (by
    refine List.mem_map.2 ⟨_, List.mem_filter.2 ⟨List.mem_map.2 ⟨_, Dict.mem_of_get? hx, rfl⟩, ?_⟩, ?_⟩
    · simp only [decide_eq_true_eq]
      rw [(linkTr_upper hr h hd h2 h4 q hb).2.2.2 hu]
    · rw [linkTr_A, h2.tr, hA]; rfl)
  unfold hypLifetime
  rw [PyM.bind_ok h1]
  simp only
  rw [PyM.bind_ok h8, PyM.bind_err (show PyM.lift (coeffs .TypeError _) w' = (w', .error .TypeError) by unfold PyM.lift; rw [c])]

/-- C102: the branching ratios raise `AttributeError`. -/
theorem C102_missing {W : Wig} (hW : W.Good) {w : World} (hr : Reachable w) {i : Nat} {J F : ℚ} (h : HfReady w i J F)
    (hd : Directed w i J F) {H : Rows HTr} (hH : H.Fits w i F) {m : Str} {t j : Nat} {J' F' : ℚ} (q : Link w i F m t j J' F')
    (hu : (w.tr t).upper = i) (hA : (w.tr t).A = none) : (hypBranching W H (hypText (w.lname i) F) w).2 = .error .AttributeError := by
  obtain ⟨w', H', d, a0, h1, h2, h3, h4, h5, h6, h7, h8, h9⟩ := linkedHyp_spec hW hr h hH
  obtain ⟨b, hb⟩ := h7 m t j J' q.ne q.adj q.lev q.J F' q.mem
  have hx : d.get? (hypText m F') = some (w'.linkTr i t a0 b J F J' F') := (h6 _ _).2 ⟨m, t, j, J', F', b, q, rfl, hb, rfl⟩
  have c := coeffs_none .AttributeError (Dict.vals ((d.filter (fun p => p.2.upper = a0)).map (fun p => (p.1, p.2.A)))) (by
    unfold Dict.vals
    rw [List.map_map]
    refine List.mem_map.2 ⟨_, List.mem_filter.2 ⟨Dict.mem_of_get? hx, ?_⟩, ?_⟩
    · simp only [decide_eq_true_eq]
      rw [(linkTr_upper hr h hd h2 h4 q hb).2.2.2 hu]
    · simp only [Function.comp]
      rw [linkTr_A, h2.tr, hA]; rfl)
  unfold hypBranching
  rw [PyM.bind_ok h1]
  simp only
  rw [PyM.bind_ok (show PyM.get w' = (w', .ok w') from rfl), hyp_downs hr h hd h2 h3 h4 h5 h6]
  unfold PyM.lift sharesOf
  rw [c]
  rfl

theorem zlinkTr_A_none {w : World} {i t j a b k c : Nat} {J F m J' F' m' : ℚ} (hA : (w.tr t).A = none) :
    (w.zlinkTr (w.linkTr i t a b J F J' F') i t j k c J F m J' F' m').A = none := by
  have hx := linkTr_A w i t a b J F J' F'
  rw [hA] at hx
  unfold zlinkTr mkZTr
  split <;> simp only <;> rw [hx] <;> rfl

/-- C108: if a transition down from a level to a Zeeman level near enough has no rate, the lifetime raises `TypeError`. -/
theorem C108_missing {W : Wig} (hW : W.Good) {w : World} (hr : Reachable w) {i : Nat} {J F m : ℚ} (h : ZeReady w i J F m)
    (hd : ZDirected w i J F m) {H : Rows HTr} (hH : H.Fits w i F) {Z : Rows ZTr} (hZ : Z.ZFits w i J F m) {u : Str} {t j : Nat}
    {J' F' m' : ℚ} (q : ZLink w i J F m u t j J' F' m') (hu : (w.tr t).upper = i) (hA : (w.tr t).A = none) :
    (zeeLifetime W H Z (zeeText (w.lname i) F m) w).2 = .error .TypeError := by
  obtain ⟨w', H', Z', d, a0, k0, h1, h2, h3, h4, h5, h6, h7, h8, h9, h10, h11⟩ := linkedZee_spec hW hr h hH hZ
  obtain ⟨b, c, hb, hc⟩ := h8 u t j J' F' q.link m' q.mem
  have hx := (h7 _ _).2 ⟨u, t, j, J', F', m', b, c, q, rfl, hb, hc, rfl⟩
  have cc := coeffs_none .TypeError ((d.vals.filter (fun x => Ref.zee x.upper = Ref.zee k0)).map ZTr.A) (by
    refine List.mem_map.2 ⟨_, List.mem_filter.2 ⟨List.mem_map.2 ⟨_, Dict.mem_of_get? hx, rfl⟩, ?_⟩, ?_⟩
    · simp only [decide_eq_true_eq]
      rw [(zlinkTr_upper hr h hd h2 h3 h4 h5 q hb hc _).2.2.2 hu]
    · exact zlinkTr_A_none (by rw [h2.tr, hA]))
  unfold zeeLifetime
  rw [PyM.bind_ok h1]
  simp only
  rw [PyM.bind_ok h9, PyM.bind_err (show PyM.lift (coeffs .TypeError _) w' = (w', .error .TypeError) by unfold PyM.lift; rw [cc])]

/-- C109: the branching ratios raise `AttributeError`. -/
theorem C109_missing {W : Wig} (hW : W.Good) {w : World} (hr : Reachable w) {i : Nat} {J F m : ℚ} (h : ZeReady w i J F m)
    (hd : ZDirected w i J F m) {H : Rows HTr} (hH : H.Fits w i F) {Z : Rows ZTr} (hZ : Z.ZFits w i J F m) {u : Str} {t j : Nat}
    {J' F' m' : ℚ} (q : ZLink w i J F m u t j J' F' m') (hu : (w.tr t).upper = i) (hA : (w.tr t).A = none) :
    (zeeBranching W H Z (zeeText (w.lname i) F m) w).2 = .error .AttributeError := by
  obtain ⟨w', H', Z', d, a0, k0, h1, h2, h3, h4, h5, h6, h7, h8, h9, h10, h11⟩ := linkedZee_spec hW hr h hH hZ
  obtain ⟨b, c, hb, hc⟩ := h8 u t j J' F' q.link m' q.mem
  have hx := (h7 _ _).2 ⟨u, t, j, J', F', m', b, c, q, rfl, hb, hc, rfl⟩
  have cc := coeffs_none .AttributeError (Dict.vals ((d.filter (fun p => p.2.upper = k0)).map (fun p => (p.1, p.2.A)))) (by
    unfold Dict.vals
    rw [List.map_map]
    refine List.mem_map.2 ⟨_, List.mem_filter.2 ⟨Dict.mem_of_get? hx, ?_⟩, ?_⟩
    · simp only [decide_eq_true_eq]
      rw [(zlinkTr_upper hr h hd h2 h3 h4 h5 q hb hc _).2.2.2 hu]
    · exact zlinkTr_A_none (by rw [h2.tr, hA]))
  unfold zeeBranching
  rw [PyM.bind_ok h1]
  simp only
  rw [PyM.bind_ok (show PyM.get w' = (w', .ok w') from rfl), zee_downs hr h hd h2 h3 h4 h5 h6 h7]
  unfold PyM.lift sharesOf
  rw [cc]
  rfl

/-! ## A line without a rate -/

/-- As `dAtom`, without the rate. -/
def noOps : List Op := dOps.take 4 ++ [.newTrans 0 1 none .none none]

/-- The atom after these calls. -/
def noAtom : World := runAll noOps (emptyAtom (3/2) 0)

theorem noAtom_reachable : Reachable noAtom := (Reachable.empty (3/2) 0).runAll (by decide +kernel)

theorem noAtom_hf : HfReady noAtom 1 (3/2) 3 where
  hI := ⟨3, by decide +kernel⟩
  lvl := ⟨by decide +kernel, by decide +kernel, by decide +kernel, ⟨3, by norm_num⟩, by decide +kernel, by decide +kernel⟩
  mem := by decide +kernel
  ali := by decide +kernel
  sub := by decide +kernel
  nbr := by
    intro n t hn ha
    obtain ⟨rfl, ⟨-, rfl⟩ | ⟨-, rfl⟩⟩ := two_nbr noAtom_reachable (by decide +kernel) (by decide +kernel) (by decide +kernel) ha
    · exact absurd rfl hn
    · exact ⟨0, 1/2, by decide +kernel, by decide +kernel, by decide +kernel, by decide +kernel, ⟨1, by norm_num⟩, by decide +kernel, by decide +kernel⟩

theorem noAtom_low {n : Str} {t j : Nat} {J' : ℚ} (hn : n ≠ noAtom.lname 1) (ha : noAtom.g.adj (noAtom.lname 1) n = some t)
    (hj : noAtom.g.lev n = some j) (hJ : (noAtom.lv j).term.J = some J') : n = noAtom.lname 0 ∧ t = 0 ∧ j = 0 ∧ J' = 1/2 := by
  obtain ⟨rfl, ⟨-, rfl⟩ | ⟨-, rfl⟩⟩ := two_nbr noAtom_reachable (by decide +kernel) (by decide +kernel) (by decide +kernel) ha
  · exact absurd rfl hn
  · have e : noAtom.g.lev (noAtom.lname 0) = some 0 := by decide +kernel
    rw [e] at hj
    obtain rfl := Option.some.inj hj
    have e : (noAtom.lv 0).term.J = some (1/2) := by decide +kernel
    rw [e] at hJ
    exact ⟨rfl, rfl, rfl, (Option.some.inj hJ).symm⟩

theorem noAtom_dir : Directed noAtom 1 (3/2) 3 where
  down := by
    intro m t j J' hd hj hJ F' hF'
    obtain ⟨rfl, rfl, rfl, rfl⟩ := noAtom_low hd.1 hd.2.1 hj hJ
    revert F'
    decide +kernel
  up := by
    intro m t j J' hn ha hu hj hJ
    obtain ⟨rfl, rfl, rfl, rfl⟩ := noAtom_low hn ha hj hJ
    exact absurd (by decide +kernel) hu

theorem noAtom_link : Link noAtom 1 3 (noAtom.lname 0) 0 0 (1/2) 2 :=
  ⟨by decide +kernel, by decide +kernel, by decide +kernel, by decide +kernel, by decide +kernel, fun _ => by
    have : (noAtom.tr 0).allowed = (true, false, false) := by decide +kernel
    rw [this]; norm_num⟩

/-- `noAtom` meets the hypotheses. -/
example : (hypLifetime exactWig Rows.empty (hypText (noAtom.lname 1) 3) noAtom).2 = .error .TypeError ∧
    (hypBranching exactWig Rows.empty (hypText (noAtom.lname 1) 3) noAtom).2 = .error .AttributeError :=
  ⟨C101_missing exactWig_good noAtom_reachable noAtom_hf noAtom_dir (Rows.empty_fits _ _ _) noAtom_link (by decide +kernel) (by decide +kernel),
    C102_missing exactWig_good noAtom_reachable noAtom_hf noAtom_dir (Rows.empty_fits _ _ _) noAtom_link (by decide +kernel) (by decide +kernel)⟩

theorem noAtom_zdir (m : ℚ) : ZDirected noAtom 1 (3/2) 3 m where
  down := by
    intro u t j J' hdec hj hJ F' hF' w' a b k c m' _ l _ _ _ _
    rw [zeeE_zero (by rw [l.B]; decide +kernel), zeeE_zero (by rw [l.B]; decide +kernel), l.hypE, l.hypE]
    exact noAtom_dir.down u t j J' hdec hj hJ F' hF'
  up := by
    intro u t j J' h1 h2 h3 h4 h5 F' hF' w' a b k c m' _ l _ _ _ _
    rw [zeeE_zero (by rw [l.B]; decide +kernel), zeeE_zero (by rw [l.B]; decide +kernel), l.hypE, l.hypE]
    exact noAtom_dir.up u t j J' h1 h2 h3 h4 h5 F' hF'

theorem noAtom_ze : ZeReady noAtom 1 (3/2) 3 2 where
  hyp := noAtom_hf
  mem := by decide +kernel
  sub := by decide +kernel

theorem noAtom_zlink : ZLink noAtom 1 (3/2) 3 2 (noAtom.lname 0) 0 0 (1/2) 2 2 :=
  ⟨noAtom_link, by decide +kernel, fun _ => by norm_num; split <;> norm_num⟩

example : (zeeLifetime exactWig Rows.empty Rows.empty (zeeText (noAtom.lname 1) 3 2) noAtom).2 = .error .TypeError ∧
    (zeeBranching exactWig Rows.empty Rows.empty (zeeText (noAtom.lname 1) 3 2) noAtom).2 = .error .AttributeError :=
  ⟨C108_missing exactWig_good noAtom_reachable noAtom_ze (noAtom_zdir 2) (Rows.empty_fits _ _ _) (Rows.empty_zfits _ _ _ _ _) noAtom_zlink
      (by decide +kernel) (by decide +kernel),
    C109_missing exactWig_good noAtom_reachable noAtom_ze (noAtom_zdir 2) (Rows.empty_fits _ _ _) (Rows.empty_zfits _ _ _ _ _) noAtom_zlink
      (by decide +kernel) (by decide +kernel)⟩

end AtomTk
