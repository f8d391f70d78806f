import Verif.Props.Gravity
import Verif.Props.LinkedZ
import Verif.Props.SubItems

/-! # C131: the centre of gravity of the Zeeman lines of a hyperfine transition (atom.py:499-503, 517-531, 591-593, 786-845) -/

namespace AtomTk
open Util World Strengths Racah

/-- The Zeeman level `m` of hyperfine level `j`. -/
def zAt (w : World) (j : Nat) (m : ℚ) : Nat := ((w.hf j).subs.get? (mKey m)).getD 0

theorem World.IsZee.zAt {w : World} {j k : Nat} {F m : ℚ} (h : IsZee w j F k m) : zAt w j m = k := by
  unfold AtomTk.zAt
  rw [h.get]; rfl

/-- All pairs of the numbers m of two hyperfine levels. -/
def zPairs (F F' : ℚ) : List (ℚ × ℚ) := (zMs F).flatMap fun m => (zMs F').map fun m' => (m, m')

theorem mem_zPairs {F F' : ℚ} {p : ℚ × ℚ} : p ∈ zPairs F F' ↔ p.1 ∈ zMs F ∧ p.2 ∈ zMs F' := by
  obtain ⟨m, m'⟩ := p
  unfold zPairs
  simp only [List.mem_flatMap, List.mem_map, Prod.mk.injEq]
  constructor
  · rintro ⟨a, ha, b, hb, rfl, rfl⟩; exact ⟨ha, hb⟩
  · rintro ⟨ha, hb⟩; exact ⟨m, ha, m', hb, rfl, rfl⟩

theorem zPairs_nodup {F F' : ℚ} (hF : IsSpin F) (hF' : IsSpin F') : (zPairs F F').Nodup := by
  unfold zPairs
  rw [List.nodup_flatMap]
  constructor
  · intro m _
    exact (zMs_nodup hF').map (fun a b h => (Prod.mk.inj h).2)
  · refine (zMs_nodup hF).imp (fun {a b} hab => ?_)
    rw [Function.onFun, List.disjoint_left]
    intro p h1 h2
    simp only [List.mem_map] at h1 h2
    obtain ⟨x, -, rfl⟩ := h1
    obtain ⟨y, -, h⟩ := h2
    exact hab (Prod.mk.inj h).1.symm

theorem zPairs_ne {F F' : ℚ} (hF : IsSpin F) (hF' : IsSpin F') : zPairs F F' ≠ [] := by
  obtain ⟨m, hm⟩ := List.exists_mem_of_ne_nil _ (zMs_ne hF)
  obtain ⟨m', hm'⟩ := List.exists_mem_of_ne_nil _ (zMs_ne hF')
  exact List.ne_nil_of_mem (mem_zPairs.2 (show (m, m').1 ∈ _ ∧ (m, m').2 ∈ _ from ⟨hm, hm'⟩))

theorem sum_zPairs (F F' : ℚ) (f : ℚ → ℚ → ℝ) : ((zPairs F F').map (fun p => f p.1 p.2)).sum =
    ((zMs F).map (fun m => ((zMs F').map (fun m' => f m m')).sum)).sum := by
  unfold zPairs
  induction zMs F with
  | nil => rfl
  | cons a l ih =>
    rw [List.flatMap_cons, List.map_append, List.sum_append, ih, List.map_map]
    rfl

/-! ## Reversing the signs of all m -/

theorem zMs_neg {F m : ℚ} (hF : IsSpin F) (hm : m ∈ zMs F) : -m ∈ zMs F := by
  obtain ⟨f, rfl⟩ := spin_nat_half hF
  rw [zMs_halves] at hm ⊢
  simp only [List.mem_map, List.mem_range] at hm ⊢
  obtain ⟨i, hi, rfl⟩ := hm
  refine ⟨f - i, by omega, ?_⟩
  unfold half
  rw [Nat.cast_sub (by omega)]
  push_cast
  ring

/-- The signs of both numbers reversed. -/
def flip2 (p : ℚ × ℚ) : ℚ × ℚ := (-p.1, -p.2)

theorem flip2_flip2 (p : ℚ × ℚ) : flip2 (flip2 p) = p := by simp [flip2]

/-- An odd function adds up to zero over a list closed under the reversal of signs. -/
theorem sum_odd {l : List (ℚ × ℚ)} (hn : l.Nodup) (hc : ∀ p ∈ l, flip2 p ∈ l) (f : ℚ × ℚ → ℝ) (hf : ∀ p ∈ l, f (flip2 p) = -f p) :
    (l.map f).sum = 0 := by
  have hp : (l.map flip2).Perm l := by
    rw [List.perm_ext_iff_of_nodup (hn.map (fun a b h => by rw [← flip2_flip2 a, h, flip2_flip2])) hn]
    intro p
    rw [List.mem_map]
    constructor
    · rintro ⟨q, hq, rfl⟩; exact hc q hq
    · intro h; exact ⟨flip2 p, hc p h, flip2_flip2 p⟩
  have h1 := (hp.map f).sum_eq
  rw [List.map_map, List.map_congr_left (g := fun p => -1 * f p) (fun p hp => by simp [hf p hp]), List.sum_map_mul_left] at h1
  linarith

theorem three1_flip {F m F' m' : ℚ} (h1 : IsHalfInt F) (h2 : IsHalfInt m) (h3 : IsHalfInt F') (h4 : IsHalfInt m') :
    threeSum 2 F 1 F' (-m) (-m') qs1 = threeSum 2 F 1 F' m m' qs1 := by
  obtain ⟨a, rfl⟩ := half_of h1; obtain ⟨x, rfl⟩ := half_of h2; obtain ⟨b, rfl⟩ := half_of h3; obtain ⟨y, rfl⟩ := half_of h4
  rw [half_neg, half_neg, threeSum_one (by decide), threeSum_one (by decide), ← w3_sq_flip a 2 b (-x) (x - y) y]
  congr 2
  ring

theorem three2_flip {F m F' m' : ℚ} (h1 : IsHalfInt F) (h2 : IsHalfInt m) (h3 : IsHalfInt F') (h4 : IsHalfInt m') :
    threeSum 2 F 2 F' (-m) (-m') qs2 = threeSum 2 F 2 F' m m' qs2 := by
  obtain ⟨a, rfl⟩ := half_of h1; obtain ⟨x, rfl⟩ := half_of h2; obtain ⟨b, rfl⟩ := half_of h3; obtain ⟨y, rfl⟩ := half_of h4
  rw [half_neg, half_neg, threeSum_two (by decide), threeSum_two (by decide), ← w3_sq_flip a 4 b (-x) (x - y) y]
  congr 2
  ring

theorem zStrength_flip (al : Types) {F m F' m' : ℚ} (h1 : IsHalfInt F) (h2 : IsHalfInt m) (h3 : IsHalfInt F') (h4 : IsHalfInt m') :
    zStrength al F (-m) F' (-m') = zStrength al F m F' m' := by
  unfold zStrength
  rw [three1_flip h1 h2 h3 h4, three2_flip h1 h2 h1 h4]

theorem ZCoupled.flip {al : Types} {F m F' m' : ℚ} (h1 : IsHalfInt F) (h2 : IsHalfInt m) (h3 : IsHalfInt F') (h4 : IsHalfInt m')
    (h : ZCoupled al F m F' m') : ZCoupled al F (-m) F' (-m') := by
  have e1 := threeSum_zero F 1 F' m m' qs1
  have e2 := threeSum_zero F 1 F' (-m) (-m') qs1
  have e3 := threeSum_zero F 2 F' m m' qs2
  have e4 := threeSum_zero F 2 F' (-m) (-m') qs2
  rw [three1_flip h1 h2 h3 h4] at e2
  rw [three2_flip h1 h2 h3 h4] at e4
  have f1 := not_iff_not.1 (e1.symm.trans e2)
  have f2 := not_iff_not.1 (e3.symm.trans e4)
  rcases h with ⟨h, h'⟩ | ⟨h, h'⟩
  · exact .inl ⟨h, f1.1 h'⟩
  · exact .inr ⟨h, f2.1 h'⟩

theorem Near.flip {al : Types} {m m' : ℚ} (h : Near al m m') : Near al (-m) (-m') := by
  intro ha
  rw [show -m - -m' = -(m - m') by ring, abs_neg]
  exact h ha

/-! ## Sublevels whose shift is proportional to m -/

/-- All the Zeeman levels of hyperfine level `j` that exist have the same factor and no quadratic coefficient. -/
def Even (w : World) (j : Nat) (g : ℚ) : Prop :=
  ∀ k z, (w.hf j).subs.get? k = some z → z < w.nzl ∧ (w.zl z).gF = g ∧ (w.zl z).quad = 0

/-- The shifts of the Zeeman levels of hyperfine level `j` are proportional to m. -/
def Linear (w : World) (j : Nat) (F : ℚ) : Prop := ∃ s, ∀ m ∈ zMs F, w.zShiftHz (zAt w j m) = .ok (s * m)

theorem lazyZ_even_other {w : World} {i j : Nat} {g : ℚ} (h : Even w j g) (hij : j ≠ i) : Even (lazyZ i w).1 j g := by
  unfold lazyZ
  split
  · split
    · refine popZs_inv (fun w1 => Even w1 j g) i (fun w1 _ _ m g' hw1 _ _ _ => ?_) _ w h
      intro k z hk
      simp only [popZ1'] at hk ⊢
      rw [upd_ne _ _ _ hij] at hk
      obtain ⟨h1, h2, h3⟩ := hw1 k z hk
      rw [upd_ne _ _ _ (by omega : z ≠ w1.nzl)]
      exact ⟨by omega, h2, h3⟩
    · exact h
  · exact h

theorem lazyZ_even_self {w : World} {j : Nat} (h : ∃ g, Even w j g) : ∃ g, Even (lazyZ j w).1 j g := by
  unfold lazyZ
  split
  · rename_i h0
    have h0 : (w.hf j).subs = [] := by simpa using h0
    split
    · rename_i F hF
      let c : ℚ := match (w.hf j).term.J with
        | some J => match compGF (w.lv (w.hf j).parent).lande w.I J F with
          | .ok g => g
          | .error _ => 0
        | none => 0
      refine ⟨c, ?_⟩
      refine (popZs_inv (fun w1 => Even w1 j c ∧ (w1.hf j).parent = (w.hf j).parent ∧ (w1.hf j).term = (w.hf j).term ∧ w1.lv = w.lv ∧ w1.I = w.I)
        j (fun w1 J1 F1 m g' hw1 hJ1 hF1 hg => ?_) _ w ⟨?_, rfl, rfl, rfl, rfl⟩).1
      · obtain ⟨e, p1, p2, p3, p4⟩ := hw1
        have hc : c = g' := by
          rw [p2] at hJ1 hF1
          rw [hF] at hF1
          cases hF1
          rw [p1, p3, p4] at hg
          simp only [c, hJ1, hg]
        simp only [popZ1', upd_same]
        refine ⟨?_, p1, p2, p3, p4⟩
        intro k z hk
        simp only [upd_same] at hk ⊢
        rw [Dict.get?_set] at hk
        split_ifs at hk with hkk
        · cases hk
          rw [upd_same]
          exact ⟨by omega, hc.symm, rfl⟩
        · obtain ⟨a1, a2, a3⟩ := e k z hk
          rw [upd_ne _ _ _ (by omega : z ≠ w1.nzl)]
          exact ⟨by omega, a2, a3⟩
      · intro k z hk
        rw [h0] at hk
        exact absurd hk (by simp [Dict.get?])
    · exact h
  · exact h

theorem lazyZ_even {w : World} {i j : Nat} (h : ∃ g, Even w j g) : ∃ g, Even (lazyZ i w).1 j g := by
  by_cases hij : j = i
  · subst hij; exact lazyZ_even_self h
  · obtain ⟨g, hg⟩ := h
    exact ⟨g, lazyZ_even_other hg hij⟩

theorem assertZs_fst {w w' : World} {j : Nat} (h : assertZs j w = (w', .ok ())) : w' = (lazyZ j w).1 := by
  unfold assertZs at h
  rcases hr : lazyZ j w with ⟨w1, r⟩
  cases r with
  | error e =>
    rw [PyM.bind_err hr] at h
    exact absurd (congrArg Prod.snd h) (by simp)
  | ok u =>
    rw [PyM.bind_ok hr, PyM.bind_ok (show PyM.get w1 = (w1, .ok w1) from rfl)] at h
    split at h
    · exact absurd (congrArg Prod.snd h) (by simp [PyM.raise])
    · exact (congrArg Prod.fst h).symm

theorem zSubs_even {W : Wig} {w w' : World} {x : HTr} {d : Dict (Str × Str) ZTr} (h : zSubs W x [] w = (w', .ok d)) {j : Nat}
    (he : ∃ g, Even w j g) : ∃ g, Even w' j g := by
  unfold zSubs at h
  rw [if_pos (by simp)] at h
  rcases h1 : assertZs x.e1 w with ⟨w1, r1⟩
  cases r1 with
  | error e =>
    rw [PyM.bind_err h1] at h
    exact absurd (congrArg Prod.snd h) (by simp)
  | ok u =>
    rw [PyM.bind_ok h1] at h
    rcases h2 : assertZs x.e2 w1 with ⟨w2, r2⟩
    cases r2 with
    | error e =>
      rw [PyM.bind_err h2] at h
      exact absurd (congrArg Prod.snd h) (by simp)
    | ok u' =>
      rw [PyM.bind_ok h2, PyM.bind_ok (show PyM.get w2 = (w2, .ok w2) from rfl)] at h
      have e : w' = w2 := (congrArg Prod.fst h).symm
      rw [e, assertZs_fst h2]
      refine lazyZ_even ?_
      rw [assertZs_fst h1]
      exact lazyZ_even he

/-- Levels of the same factor without quadratic coefficients shift in proportion to m; without a field nothing shifts. -/
theorem linear_of {w : World} {j : Nat} {F : ℚ} (hz : ∀ m ∈ zMs F, IsZee w j F (zAt w j m) m) (h : w.B = 0 ∨ ∃ g, Even w j g) : Linear w j F := by
  rcases h with h | ⟨g, h⟩
  · refine ⟨0, fun m hm => ?_⟩
    unfold zShiftHz
    rw [(hz m hm).mF]
    simp [zShift, h]
  · refine ⟨g * muB * w.B, fun m hm => ?_⟩
    unfold zShiftHz
    obtain ⟨-, h1, h2⟩ := h _ _ (hz m hm).get
    rw [(hz m hm).mF]
    simp only [h1, h2, zShift, Except.ok.injEq]
    ring

/-! ## The lines -/

/-- All the Zeeman levels of one hyperfine level of a transition lie on the same side of all those of the other. -/
def ZSeparated (w : World) (x : HTr) (F F' : ℚ) : Prop :=
  (∀ m ∈ zMs F, ∀ m' ∈ zMs F', ∀ a b, w.zHz (zAt w x.e1 m) = .ok a → w.zHz (zAt w x.e2 m') = .ok b → a < b) ∨
    (∀ m ∈ zMs F, ∀ m' ∈ zMs F', ∀ a b, w.zHz (zAt w x.e1 m) = .ok a → w.zHz (zAt w x.e2 m') = .ok b → b ≤ a)

theorem zKey_of {w : World} {x : HTr} {i1 i2 a b : Nat} {J1 F1 m1 J2 F2 m2 : ℚ} (h1 : IsZee w x.e1 F1 a m1) (h2 : IsZee w x.e2 F2 b m2) :
    w.zKey (w.mkZTr x i1 i2 a b J1 F1 m1 J2 F2 m2) =
      if w.zeeE i2 J2 F2 b m2 > w.zeeE i1 J1 F1 a m1 then (mKey m1, mKey m2) else (mKey m2, mKey m1) := by
  unfold zKey mkZTr
  simp only
  split <;> rw [h1.short, h2.short]

theorem zcoupled_iff (x : HTr) {w : World} {i1 i2 a b : Nat} {J1 F1 m1 J2 F2 m2 : ℚ} (h1 : IsHalfInt F1) (h2 : IsHalfInt m1) (h3 : IsHalfInt F2)
    (h4 : IsHalfInt m2) : (w.mkZTr x i1 i2 a b J1 F1 m1 J2 F2 m2).allowed.any = true ↔ ZCoupled x.allowed F1 m1 F2 m2 := by
  unfold ZCoupled
  rw [← flag_one h1 h2 h3 h4, ← flag_two h1 h2 h3 h4]
  simp only [mkZTr, zTypes, Types.any, Bool.or_eq_true, Bool.and_eq_true, decide_eq_true_eq]
  tauto

open Classical in
/-- The Zeeman lines of a hyperfine transition of separated levels: one for each pair that the code looks at and that is coupled. -/
theorem zlines_perm {W : Wig} (hW : W.Good) {w : World} (hr : Reachable w) {x : HTr} {i i' : Nat} {J F J' F' : ℚ} (hz : ZReady w x i i' J F J' F') :
    ∃ w' d, zSubs W x [] w = (w', .ok d) ∧ LFrame w w' ∧ ZReady w' x i i' J F J' F' ∧
      (∀ m ∈ zMs F, IsZee w' x.e1 F (zAt w' x.e1 m) m) ∧ (∀ m' ∈ zMs F', IsZee w' x.e2 F' (zAt w' x.e2 m') m') ∧
      (ZSeparated w' x F F' →
        d.vals.Perm (((zPairs F F').filter (fun p => Near x.allowed p.1 p.2 ∧ ZCoupled x.allowed F p.1 F' p.2)).map
          (fun p => w'.mkZTr x i i' (zAt w' x.e1 p.1) (zAt w' x.e2 p.2) J F p.1 J' F' p.2))) := by
  obtain ⟨w', d, h1, h2, h3, h4, h5, h6, h7, h8, h9⟩ := zSubs_spec hW hr.subInv hz
  have s1 : ∀ m ∈ zMs F, IsZee w' x.e1 F (zAt w' x.e1 m) m := by
    intro m hm
    obtain ⟨a, ha⟩ := zee_all h3 h4.hF1 h4.s1 h6 hm
    rw [ha.zAt]; exact ha
  have s2 : ∀ m ∈ zMs F', IsZee w' x.e2 F' (zAt w' x.e2 m) m := by
    intro m hm
    obtain ⟨a, ha⟩ := zee_all h3 h4.hF2 h4.s2 h7 hm
    rw [ha.zAt]; exact ha
  refine ⟨w', d, h1, h2, h4, s1, s2, fun hsep => ?_⟩
  have q1 := h4.s1.isHalfInt
  have q2 := h4.s2.isHalfInt
  have n1 : d.vals.Nodup := by
    have e : d.keys = d.vals.map w'.zKey := by
      unfold Dict.keys Dict.vals
      rw [List.map_map]
      refine List.map_congr_left ?_
      rintro ⟨k, y⟩ hm
      obtain ⟨a, b, m, m', -, -, -, -, -, hk⟩ := h8 k y (Dict.get?_of_mem h5 hm)
      exact hk.symm
    rw [e] at h5
    exact h5.of_map
  have n2 : (((zPairs F F').filter (fun p => Near x.allowed p.1 p.2 ∧ ZCoupled x.allowed F p.1 F' p.2)).map
      (fun p => w'.mkZTr x i i' (zAt w' x.e1 p.1) (zAt w' x.e2 p.2) J F p.1 J' F' p.2)).Nodup := by
    refine List.Nodup.map_on ?_ ((zPairs_nodup h4.s1 h4.s2).filter _)
    rintro ⟨m, m'⟩ hp ⟨n, n'⟩ hq he
    obtain ⟨p1, p2⟩ := mem_zPairs.1 (List.mem_filter.1 hp).1
    obtain ⟨q1, q2⟩ := mem_zPairs.1 (List.mem_filter.1 hq).1
    have e1 : zAt w' x.e1 m = zAt w' x.e1 n := congrArg ZTr.e1 he
    have e2 : zAt w' x.e2 m' = zAt w' x.e2 n' := congrArg ZTr.e2 he
    have f1 := (s1 m p1).mF
    have f2 := (s2 m' p2).mF
    rw [e1, (s1 n q1).mF] at f1
    rw [e2, (s2 n' q2).mF] at f2
    rw [Option.some.inj f1, Option.some.inj f2]
  have dir : (∀ a m b m', IsZee w' x.e1 F a m → IsZee w' x.e2 F' b m' → w'.zeeE i J F a m < w'.zeeE i' J' F' b m') ∨
      (∀ a m b m', IsZee w' x.e1 F a m → IsZee w' x.e2 F' b m' → w'.zeeE i' J' F' b m' ≤ w'.zeeE i J F a m) := by
    have en : ∀ {a m}, IsZee w' x.e1 F a m → w'.zHz (zAt w' x.e1 m) = .ok (w'.zeeE i J F a m) := fun h => by
      rw [h.zAt]; exact zee_energy h4.hJ1 h4.hF1 h4.p1 h
    have en' : ∀ {a m}, IsZee w' x.e2 F' a m → w'.zHz (zAt w' x.e2 m) = .ok (w'.zeeE i' J' F' a m) := fun h => by
      rw [h.zAt]; exact zee_energy h4.hJ2 h4.hF2 h4.p2 h
    rcases hsep with h | h
    · exact .inl (fun a m b m' ha hb => h m ha.mem m' hb.mem _ _ (en ha) (en' hb))
    · exact .inr (fun a m b m' ha hb => h m ha.mem m' hb.mem _ _ (en ha) (en' hb))
  have inj : ∀ {a b m m' a' b' n n'}, IsZee w' x.e1 F a m → IsZee w' x.e2 F' b m' → IsZee w' x.e1 F a' n → IsZee w' x.e2 F' b' n' →
      w'.zKey (w'.mkZTr x i i' a' b' J F n J' F' n') = w'.zKey (w'.mkZTr x i i' a b J F m J' F' m') → a' = a ∧ b' = b := by
    intro a b m m' a' b' n n' g1 g2 g1' g2' hk
    rw [zKey_of g1 g2, zKey_of g1' g2'] at hk
    have key : mKey n = mKey m ∧ mKey n' = mKey m' := by
      rcases dir with hs | hs
      · rw [if_pos (hs _ _ _ _ g1 g2), if_pos (hs _ _ _ _ g1' g2')] at hk
        exact ⟨congrArg Prod.fst hk, congrArg Prod.snd hk⟩
      · rw [if_neg (not_lt.2 (hs _ _ _ _ g1 g2)), if_neg (not_lt.2 (hs _ _ _ _ g1' g2'))] at hk
        exact ⟨congrArg Prod.snd hk, congrArg Prod.fst hk⟩
    obtain rfl := mKey_inj (zMs_half h4.s1 g1'.mem) (zMs_half h4.s1 g1.mem) key.1
    obtain rfl := mKey_inj (zMs_half h4.s2 g2'.mem) (zMs_half h4.s2 g2.mem) key.2
    exact ⟨by rw [← g1.zAt, ← g1'.zAt], by rw [← g2.zAt, ← g2'.zAt]⟩
  rw [List.perm_ext_iff_of_nodup n1 n2]
  intro y
  rw [Dict.mem_vals h5, List.mem_map]
  constructor
  · rintro ⟨k, hk⟩
    obtain ⟨a, b, m, m', i1, i2, i3, rfl, i4, -⟩ := h8 k y hk
    have i4 := (zcoupled_iff x q1 (zMs_half h4.s1 i1.mem) q2 (zMs_half h4.s2 i2.mem)).1 i4
    have i3 := (pairOk_near _ _ _).1 i3
    refine ⟨(m, m'), List.mem_filter.2 ⟨mem_zPairs.2 ⟨i1.mem, i2.mem⟩, ?_⟩, ?_⟩
    · simpa using ⟨i3, i4⟩
    · simp only
      rw [i1.zAt, i2.zAt]
  · rintro ⟨⟨m, m'⟩, hp, rfl⟩
    obtain ⟨hp, hq⟩ := List.mem_filter.1 hp
    obtain ⟨p1, p2⟩ := mem_zPairs.1 hp
    simp only [decide_eq_true_eq] at hq p1 p2 ⊢
    have ha := s1 m p1
    have hb := s2 m' p2
    obtain ⟨-, h10⟩ := h9 _ _ m m' ha hb ((pairOk_near _ _ _).2 hq.1)
      ((zcoupled_iff x q1 (zMs_half h4.s1 p1) q2 (zMs_half h4.s2 p2)).2 hq.2)
    exact ⟨_, h10 (fun a' b' n n' g1 g2 hk => inj ha hb g1 g2 hk)⟩

/-- The mean frequency of the Zeeman lines `l` of a hyperfine transition, weighted with their strengths, is the frequency of the transition. -/
def GravityZ (w' : World) (x : HTr) (l : List ZTr) : Prop :=
  ∃ (q : ℚ) (f : ZTr → ℚ), w'.hFreq x = .ok q ∧ (∀ y ∈ l, w'.zFreq y = .ok (f y)) ∧
    (l.map (fun y => y.rel * ((f y : ℚ) : ℝ))).sum = (l.map (fun y => y.rel)).sum * ((q : ℚ) : ℝ)

/-- The full claim: without quadratic coefficients the field does not move the centre of gravity. -/
def C131_full : Prop := ∀ (W : Wig) (w : World) (x : HTr) (i i' : Nat) (J F J' F' : ℚ), W.Good → Reachable w → IsSpin w.I → IsSpin J → IsSpin J' →
  IsHyp w i J x.e1 F → IsHyp w i' J' x.e2 F' → (w.B = 0 ∨ ∃ g, Even w x.e1 g) → (w.B = 0 ∨ ∃ g, Even w x.e2 g) →
  ∃ w' d, zSubs W x [] w = (w', .ok d) ∧ GravityZ w' x d.vals

theorem hyp_energy {w : World} {i j : Nat} {J F : ℚ} (hJ : (w.hf j).term.J = some J) (hF : (w.hf j).term.F = some F)
    (hp : (w.hf j).parent = i) : w.hHz j = .ok (w.hypE i J F) := by
  unfold hHz hShift
  rw [hJ, hF, hp]
  simp only [hfShift_ok]
  rfl

/-- C131 for hyperfine transitions of all types, with or without a rate, with Zeeman levels that do not overlap: strengths are the same
for m and -m, shifts are opposite.  Missing: overlapping levels (`C131_fails`). -/
theorem C131_gravity_partial {W : Wig} (hW : W.Good) {w : World} (hr : Reachable w) {x : HTr} {i i' : Nat} {J F J' F' : ℚ} (hI : IsSpin w.I)
    (hJ : IsSpin J) (hJ' : IsSpin J') (h1 : IsHyp w i J x.e1 F) (h2 : IsHyp w i' J' x.e2 F')
    (g1 : w.B = 0 ∨ ∃ g, Even w x.e1 g) (g2 : w.B = 0 ∨ ∃ g, Even w x.e2 g) :
    ∃ w' d, zSubs W x [] w = (w', .ok d) ∧ (ZSeparated w' x F F' → GravityZ w' x d.vals) := by
  classical
  obtain ⟨w', d, k1, k2, hz, s1, s2, k3⟩ := zlines_perm hW hr (IsHyp.zready hI hJ hJ' h1 h2)
  refine ⟨w', d, k1, fun hsep => ?_⟩
  replace k3 := k3 hsep
  obtain ⟨s, hs⟩ := linear_of s1 (g1.imp (fun h => by rw [k2.B]; exact h) (zSubs_even k1))
  obtain ⟨s', hs'⟩ := linear_of s2 (g2.imp (fun h => by rw [k2.B]; exact h) (zSubs_even k1))
  have hE := hyp_energy hz.hJ1 hz.hF1 hz.p1
  have hE' := hyp_energy hz.hJ2 hz.hF2 hz.p2
  set E := w'.hypE i J F with hEd
  set E' := w'.hypE i' J' F' with hEd'
  have en : ∀ m ∈ zMs F, w'.zHz (zAt w' x.e1 m) = .ok (E + s * m) := by
    intro m hm
    have := hs m hm
    unfold zHz
    rw [this, (s1 m hm).par, hE]; rfl
  have en' : ∀ m ∈ zMs F', w'.zHz (zAt w' x.e2 m) = .ok (E' + s' * m) := by
    intro m hm
    have := hs' m hm
    unfold zHz
    rw [this, (s2 m hm).par, hE']; rfl
  let P : Prop := ∀ m ∈ zMs F, ∀ m' ∈ zMs F', E + s * m < E' + s' * m'
  let sg : ℚ := if P then 1 else -1
  let D : ℚ × ℚ → ℚ := fun p => sg * ((E' + s' * p.2) - (E + s * p.1))
  have hD : ∀ p ∈ zPairs F F', D p = |(E + s * p.1) - (E' + s' * p.2)| ∧ 0 ≤ D p := by
    rintro ⟨m, m'⟩ hp
    obtain ⟨p1, p2⟩ := mem_zPairs.1 hp
    simp only at p1 p2 ⊢
    by_cases hh : P
    · have := hh m p1 m' p2
      simp only [D, sg, if_pos hh]
      rw [abs_sub_comm, abs_of_pos (by linarith)]
      constructor <;> linarith
    · have h0 := hsep.resolve_left (fun h => hh (fun m hm m' hm' => h m hm m' hm' _ _ (en m hm) (en' m' hm')))
      have := h0 m p1 m' p2 _ _ (en m p1) (en' m' p2)
      simp only [D, sg, if_neg hh]
      rw [abs_of_nonneg (by linarith)]
      constructor <;> linarith
  have cl : ∀ p ∈ zPairs F F', flip2 p ∈ zPairs F F' := by
    intro p hp
    obtain ⟨p1, p2⟩ := mem_zPairs.1 hp
    exact mem_zPairs.2 ⟨zMs_neg hz.s1 p1, zMs_neg hz.s2 p2⟩
  -- a weight that is the same for m and -m
  have mean : ∀ (l : List (ℚ × ℚ)), l.Nodup → (∀ p ∈ l, flip2 p ∈ l) → ∀ v : ℚ × ℚ → ℝ, (∀ p ∈ l, v (flip2 p) = v p) →
      (l.map (fun p => v p * ((D p : ℚ) : ℝ))).sum = (l.map v).sum * ((sg * (E' - E) : ℚ) : ℝ) := by
    intro l hl hc v hv
    have e : (fun p : ℚ × ℚ => v p * ((D p : ℚ) : ℝ)) = fun p => v p * ((sg * (E' - E) : ℚ) : ℝ) + v p * ((sg * (s' * p.2 - s * p.1) : ℚ) : ℝ) := by
      funext p
      simp only [D]
      push_cast
      ring
    rw [e, List.sum_map_add, List.sum_map_mul_right, sum_odd hl hc (fun p => v p * ((sg * (s' * p.2 - s * p.1) : ℚ) : ℝ)) ?_, add_zero]
    intro p hp
    rw [hv p hp]
    simp only [flip2]
    push_cast
    ring
  have hpos : 0 ≤ sg * (E' - E) := by
    have h0 := mean _ (zPairs_nodup hz.s1 hz.s2) cl (fun _ => 1) (fun _ _ => rfl)
    simp only [one_mul] at h0
    have h3 : 0 ≤ ((zPairs F F').map (fun p => ((D p : ℚ) : ℝ))).sum := by
      refine List.sum_nonneg ?_
      intro y hy
      obtain ⟨p, hp, rfl⟩ := List.mem_map.1 hy
      exact_mod_cast (hD p hp).2
    have h4 : 0 < ((zPairs F F').map (fun _ => (1 : ℝ))).sum := by
      have := List.length_pos_of_ne_nil (zPairs_ne hz.s1 hz.s2)
      simpa using this
    rw [h0] at h3
    exact_mod_cast nonneg_of_mul_nonneg_right h3 h4
  have hq : w'.hFreq x = .ok (sg * (E' - E)) := by
    unfold hFreq
    rw [hE, hE']
    show Except.ok |E - E'| = _
    congr 1
    rcases (by simp only [sg]; split <;> simp : sg = 1 ∨ sg = -1) with h | h
    · rw [h] at hpos ⊢
      rw [abs_sub_comm, abs_of_nonneg (by linarith)]
      ring
    · rw [h] at hpos ⊢
      rw [abs_of_nonneg (by linarith)]
      ring
  have hfq : ∀ p ∈ zPairs F F', w'.zFreq (w'.mkZTr x i i' (zAt w' x.e1 p.1) (zAt w' x.e2 p.2) J F p.1 J' F' p.2) = .ok (D p) := by
    rintro ⟨m, m'⟩ hp
    obtain ⟨p1, p2⟩ := mem_zPairs.1 hp
    unfold zFreq mkZTr
    simp only at p1 p2 ⊢
    rw [en m p1, en' m' p2, (hD _ hp).1]
    rfl
  let f : ZTr → ℚ := fun y => match w'.zFreq y with
    | .ok q => q
    | .error _ => 0
  refine ⟨_, f, hq, ?_, ?_⟩
  · intro y hy
    obtain ⟨p, hp, rfl⟩ := List.mem_map.1 (k3.mem_iff.1 hy)
    have := hfq p (List.mem_filter.1 hp).1
    simp only [f, this]
  · rw [(k3.map (fun y => y.rel * ((f y : ℚ) : ℝ))).sum_eq, (k3.map (fun y => y.rel)).sum_eq, List.map_map, List.map_map]
    set L := (zPairs F F').filter (fun p => decide (Near x.allowed p.1 p.2 ∧ ZCoupled x.allowed F p.1 F' p.2)) with hL
    let v : ℚ × ℚ → ℝ := fun p => (w'.mkZTr x i i' (zAt w' x.e1 p.1) (zAt w' x.e2 p.2) J F p.1 J' F' p.2).rel
    have e : ∀ p ∈ L, ((fun y : ZTr => y.rel * ((f y : ℚ) : ℝ)) ∘
        fun p : ℚ × ℚ => w'.mkZTr x i i' (zAt w' x.e1 p.1) (zAt w' x.e2 p.2) J F p.1 J' F' p.2) p = v p * ((D p : ℚ) : ℝ) := by
      intro p hp
      have := hfq p (List.mem_filter.1 hp).1
      simp only [Function.comp, f, this, v]
    rw [List.map_congr_left e]
    refine mean L ((zPairs_nodup hz.s1 hz.s2).filter _) ?_ v ?_
    · intro p hp
      obtain ⟨p1, p2⟩ := List.mem_filter.1 hp
      obtain ⟨m1, m2⟩ := mem_zPairs.1 p1
      simp only [decide_eq_true_eq] at p2
      refine List.mem_filter.2 ⟨cl p p1, ?_⟩
      simp only [decide_eq_true_eq]
      exact ⟨p2.1.flip, p2.2.flip hz.s1.isHalfInt (zMs_half hz.s1 m1) hz.s2.isHalfInt (zMs_half hz.s2 m2)⟩
    · intro p hp
      obtain ⟨m1, m2⟩ := mem_zPairs.1 (List.mem_filter.1 hp).1
      simp only [v, mkZTr, flip2]
      rw [zStrength_flip _ hz.s1.isHalfInt (zMs_half hz.s1 m1) hz.s2.isHalfInt (zMs_half hz.s2 m2)]

/-- C131: the strengths of the Zeeman lines of a dipole transition with a rate add up to 1. -/
theorem C131_total_partial {W : Wig} (hW : W.Good) {w : World} (hr : Reachable w) {x : HTr} {i i' : Nat} {J F J' F' : ℚ} (hI : IsSpin w.I)
    (hJ : IsSpin J) (hJ' : IsSpin J') (h1 : IsHyp w i J x.e1 F) (h2 : IsHyp w i' J' x.e2 F') (hA : x.A ≠ none)
    (hd : (x.allowed.1 || x.allowed.2.1) = true) (hc : Couples F F' 1) :
    ∃ w' d, zSubs W x [] w = (w', .ok d) ∧ (ZSeparated w' x F F' → (d.vals.map (fun y => y.rel)).sum = 1) := by
  classical
  obtain ⟨w', d, k1, k2, hz, s1, s2, k3⟩ := zlines_perm hW hr (IsHyp.zready hI hJ hJ' h1 h2)
  refine ⟨w', d, k1, fun hsep => ?_⟩
  replace k3 := k3 hsep
  obtain ⟨A, hA⟩ := Option.ne_none_iff_exists'.1 hA
  rw [(k3.map (fun y => y.rel)).sum_eq, List.map_map]
  have e : ((fun y : ZTr => y.rel) ∘ fun p : ℚ × ℚ => w'.mkZTr x i i' (zAt w' x.e1 p.1) (zAt w' x.e2 p.2) J F p.1 J' F' p.2) =
      fun p => zStrength x.allowed F p.1 F' p.2 := by
    funext p
    simp only [Function.comp, mkZTr, hA]
  have z : ∀ p ∈ zPairs F F', ¬(Near x.allowed p.1 p.2 ∧ ZCoupled x.allowed F p.1 F' p.2) → zStrength x.allowed F p.1 F' p.2 = 0 := by
    rintro ⟨m, m'⟩ hp hn
    obtain ⟨m1, m2⟩ := mem_zPairs.1 hp
    have hm := zMs_half hz.s1 m1
    have hm' := zMs_half hz.s2 m2
    by_contra hne
    unfold zStrength at hne
    rw [if_pos hd] at hne
    have := not_not.1 (fun h => hne ((threeSum_zero F 1 F' m m' qs1).2 h))
    refine hn ⟨fun _ => ?_, .inl ⟨by simpa using hd, this⟩⟩
    obtain ⟨q, hq, h3⟩ := this
    have := three_sel1 hm hm' hq h3
    split <;> linarith
  have t := sum_filter_zero (fun p : ℚ × ℚ => Near x.allowed p.1 p.2 ∧ ZCoupled x.allowed F p.1 F' p.2)
    (fun p => zStrength x.allowed F p.1 F' p.2) _ z
  rw [e]
  refine Eq.trans (by congr!) (t.trans ?_)
  rw [sum_zPairs F F' (fun m m' => zStrength x.allowed F m F' m'), List.map_congr_left (fun m hm => zDipole_sum hd hz.s1 hz.s2 hm hc)]
  obtain ⟨f, hf⟩ := spin_nat_half hz.s1
  rw [hf, zMs_halves]
  simp only [List.map_const', List.sum_replicate, List.length_map, List.length_range, nsmul_eq_mul]
  unfold half
  push_cast
  have : (2 * ((f : ℝ) / 2) + 1) ≠ 0 := by positivity
  field_simp

/-! ## A concrete atom -/

/-- Nuclear spin 1/2 in a field, two levels with J = 1/2; the Zeeman levels with F = 1 have been looked at. -/
def zgOps : List Op :=
  [.newLevel (demoTerm 'g') 0 2 4 0 0 none,
   .newLevel ⟨['e'], "2P*".toList, some (1/2), none, none, 100, { l := some 1, s := some (1/2) }⟩ 1000000000 (2/3) 0 0 0 none,
   .addLevel 0 true none, .addLevel 1 false none, .getLevel "g 2S1/2 F=1 mF=0".toList, .getLevel "e 2P*1/2 F=1 mF=0".toList]

/-- The atom after these calls. -/
def zgAtom : World := runAll zgOps (emptyAtom (1/2) 1)

theorem zgAtom_reachable : Reachable zgAtom := (Reachable.empty (1/2) 1).runAll (by decide +kernel)

theorem zgAtom_g : IsHyp zgAtom 0 (1/2) 1 1 :=
  ⟨by decide +kernel, by decide +kernel, by decide +kernel, by decide +kernel, by decide +kernel, by decide +kernel, by decide +kernel⟩

theorem zgAtom_e : IsHyp zgAtom 1 (1/2) 3 1 :=
  ⟨by decide +kernel, by decide +kernel, by decide +kernel, by decide +kernel, by decide +kernel, by decide +kernel, by decide +kernel⟩

/-- Its line between the two levels with F = 1. -/
def zgLine : HTr := ⟨0, 1, 3, 1, 3, some 1, 1, (true, false, false)⟩

/-- The transition of its lower level with F = 1 to itself. -/
def zgInside : HTr := ⟨0, 1, 1, 1, 1, some 1, 1, (false, true, false)⟩

theorem zSubs_state {W : Wig} {w w' : World} {x : HTr} {d : Dict (Str × Str) ZTr} (h1 : (w.hf x.e1).subs ≠ []) (h2 : (w.hf x.e2).subs ≠ [])
    (h : zSubs W x [] w = (w', .ok d)) : w' = w := by
  unfold zSubs at h
  rw [if_pos (by simp), PyM.bind_ok (assertZs_id h1), PyM.bind_ok (assertZs_id h2), PyM.bind_ok (show PyM.get w = (w, .ok w) from rfl)] at h
  exact (congrArg Prod.fst h).symm

theorem even_of {w : World} {j : Nat} (l : List (Str × Nat)) (hl : (w.hf j).subs = l) (g : ℚ)
    (h : ∀ p ∈ l, p.2 < w.nzl ∧ (w.zl p.2).gF = g ∧ (w.zl p.2).quad = 0) : Even w j g := by
  intro k z hk
  rw [hl] at hk
  exact h (k, z) (Dict.mem_of_get? hk)

theorem zgAtom_even1 : ∃ g, Even zgAtom 1 g := ⟨(zgAtom.zl 0).gF, even_of _ rfl _ (by decide +kernel)⟩

theorem zgAtom_even3 : ∃ g, Even zgAtom 3 g := ⟨(zgAtom.zl 3).gF, even_of _ rfl _ (by decide +kernel)⟩

theorem zgAtom_separated : ZSeparated zgAtom zgLine 1 1 := by
  left
  intro m hm m' hm' a b ha hb
  have h : ∀ m ∈ zMs 1, ∀ m' ∈ zMs 1, ∃ a b, zgAtom.zHz (zAt zgAtom 1 m) = .ok a ∧ zgAtom.zHz (zAt zgAtom 3 m') = .ok b ∧ a < b := by
    have key : ∀ m ∈ zMs 1, ∀ m' ∈ zMs 1, (match zgAtom.zHz (zAt zgAtom 1 m), zgAtom.zHz (zAt zgAtom 3 m') with
        | .ok a, .ok b => decide (a < b)
        | _, _ => false) = true := by decide +kernel
    intro m hm m' hm'
    have := key m hm m' hm'
    split at this
    · rename_i a b e1 e2
      exact ⟨a, b, e1, e2, by simpa using this⟩
    · simp at this
  obtain ⟨a', b', e1, e2, e3⟩ := h m hm m' hm'
  rw [show zgLine.e1 = 1 from rfl, e1] at ha
  rw [show zgLine.e2 = 3 from rfl, e2] at hb
  cases ha; cases hb
  exact e3

/-- The hypotheses are met, with shifts that are not zero. -/
example : ∃ d, zSubs exactWig zgLine [] zgAtom = (zgAtom, .ok d) ∧ GravityZ zgAtom zgLine d.vals ∧ (d.vals.map (fun y => y.rel)).sum = 1 ∧
    zgAtom.zShiftHz (zAt zgAtom 1 1) ≠ .ok 0 ∧ zgAtom.zShiftHz (zAt zgAtom 3 1) ≠ .ok 0 := by
  have hI : IsSpin zgAtom.I := ⟨1, by decide +kernel⟩
  have hh : IsSpin (1/2) := ⟨1, by norm_num⟩
  obtain ⟨w', d, h1, h2⟩ := C131_gravity_partial exactWig_good zgAtom_reachable (x := zgLine) hI hh hh zgAtom_g zgAtom_e
    (.inr zgAtom_even1) (.inr zgAtom_even3)
  obtain ⟨w2, d2, g1, g2⟩ := C131_total_partial exactWig_good zgAtom_reachable (x := zgLine) hI hh hh zgAtom_g zgAtom_e (by simp [zgLine])
    (by simp [zgLine]) ⟨by norm_num, by norm_num, -1, by norm_num⟩
  obtain rfl := zSubs_state (by decide +kernel) (by decide +kernel) h1
  rw [h1] at g1
  simp only [Prod.mk.injEq, Except.ok.injEq] at g1
  obtain ⟨rfl, rfl⟩ := g1
  exact ⟨d, h1, h2 zgAtom_separated, g2 zgAtom_separated, by decide +kernel, by decide +kernel⟩

/-- C131 fails for levels that overlap: the transition of a hyperfine level to itself has the frequency 0, its Zeeman lines have not. -/
theorem C131_fails : ¬C131_full := by
  intro h
  have hI : IsSpin zgAtom.I := ⟨1, by decide +kernel⟩
  have hh : IsSpin (1/2) := ⟨1, by norm_num⟩
  obtain ⟨w', d, h1, q, f, hq, hf, hs⟩ := h exactWig zgAtom zgInside 0 0 (1/2) 1 (1/2) 1 exactWig_good zgAtom_reachable hI hh hh zgAtom_g zgAtom_g
    (.inr zgAtom_even1) (.inr zgAtom_even1)
  have hz := IsHyp.zready (x := zgInside) hI hh hh zgAtom_g zgAtom_g
  obtain ⟨w2, d2, e1, -, e3, e4, e5, e6, e7, e8, e9⟩ := zSubs_spec exactWig_good zgAtom_reachable.subInv hz
  obtain rfl := zSubs_state (by decide +kernel) (by decide +kernel) h1
  rw [h1] at e1
  simp only [Prod.mk.injEq, Except.ok.injEq] at e1
  obtain ⟨rfl, rfl⟩ := e1
  have hq0 : zgAtom.hFreq zgInside = .ok 0 := by decide +kernel
  rw [hq] at hq0
  cases hq0
  rw [Rat.cast_zero, mul_zero] at hs
  have s3 : IsHalfInt 1 := ⟨2, by norm_num⟩
  -- what the lines are
  have form : ∀ k y, d.get? k = some y → ∃ m m', m ∈ zMs 1 ∧ m' ∈ zMs 1 ∧ IsZee zgAtom 1 1 y.e1 m ∧ IsZee zgAtom 1 1 y.e2 m' ∧
      y.rel = threeSum 2 1 1 1 m m' qs1 ∧ y.rel ≠ 0 ∧ (zgAtom.zKey y = (mKey m, mKey m') ∨ zgAtom.zKey y = (mKey m', mKey m)) ∧ zgAtom.zKey y = k := by
    intro k y hk
    obtain ⟨a, b, m, m', i1, i2, i3, rfl, i4, i5⟩ := e8 k y hk
    have hr : (zgAtom.mkZTr zgInside 0 0 a b (1/2) 1 m (1/2) 1 m').rel = threeSum 2 1 1 1 m m' qs1 := rfl
    refine ⟨m, m', i1.mem, i2.mem, i1, i2, hr, ?_, ?_, i5⟩
    · rw [hr]
      have i4 := (zcoupled_iff zgInside s3 (zMs_half e4.s1 i1.mem) s3 (zMs_half e4.s2 i2.mem)).1 i4
      intro h0
      rcases i4 with ⟨-, h2⟩ | ⟨h2, -⟩
      · exact (threeSum_zero 1 1 1 m m' qs1).1 h0 h2
      · simp [zgInside] at h2
    · rw [zKey_of i1 i2]
      split
      · exact .inl rfl
      · exact .inr rfl
  have freq : ∀ m ∈ zMs 1, ∀ m' ∈ zMs 1, (match zgAtom.zHz (zAt zgAtom 1 m), zgAtom.zHz (zAt zgAtom 1 m') with
      | .ok a, .ok b => decide (m ≠ m' → |a - b| ≠ 0)
      | _, _ => false) = true := by decide +kernel
  have fne : ∀ y ∈ d.vals, ∀ m m', IsZee zgAtom 1 1 y.e1 m → IsZee zgAtom 1 1 y.e2 m' → 0 ≤ f y ∧ (m ≠ m' → f y ≠ 0) := by
    intro y hy m m' i1 i2
    have a := hf y hy
    have b := freq m i1.mem m' i2.mem
    rw [i1.zAt, i2.zAt] at b
    unfold zFreq at a
    split at b
    · rename_i u v g1 g2
      rw [g1, g2] at a
      have a : |u - v| = f y := Except.ok.inj a
      rw [← a]
      exact ⟨abs_nonneg _, of_decide_eq_true b⟩
    · simp at b
  have nn : ∀ t ∈ d.vals.map (fun y => y.rel * ((f y : ℚ) : ℝ)), 0 ≤ t := by
    intro t ht
    obtain ⟨y, hy, rfl⟩ := List.mem_map.1 ht
    obtain ⟨k, hk⟩ := (Dict.mem_vals e5 y).1 hy
    obtain ⟨m, m', -, -, i1, i2, r, -, -, -⟩ := form k y hk
    rw [r]
    exact mul_nonneg (threeSum_nonneg ..) (by exact_mod_cast (fne y hy m m' i1 i2).1)
  -- the line from m = 0 to m = 1
  obtain ⟨a, ha⟩ := zee_all e3 e4.hF1 e4.s1 e6 (m := 0) (by decide +kernel)
  obtain ⟨b, hb⟩ := zee_all e3 e4.hF2 e4.s2 e7 (m := 1) (by decide +kernel)
  have hc : ZCoupled zgInside.allowed 1 0 1 1 := by
    refine .inl ⟨.inr rfl, -1, by simp, ?_⟩
    have := three_half 2 2 2 0 (-2) 2
    have e0 : half 0 = 0 := by unfold half; simp
    have em : half (-2) = -1 := by unfold half; norm_num
    rw [half_one, e0, em] at this
    rw [neg_zero, this]
    exact w3_ne (by decide) (by decide +kernel)
  obtain ⟨⟨y, hy⟩, -⟩ := e9 a b 0 1 ha hb (by decide +kernel) ((zcoupled_iff zgInside s3 ⟨0, by simp⟩ s3 s3).2 hc)
  obtain ⟨m, m', hm, hm', i1, i2, -, r0, hk1, hk2⟩ := form _ y hy
  have hyv := (Dict.mem_vals e5 y).2 ⟨_, hy⟩
  have hne : m ≠ m' := by
    rintro rfl
    rw [hk2, zKey_of ha hb] at hk1
    have h01 : mKey 0 ≠ mKey 1 := by decide +kernel
    rcases hk1 with hk1 | hk1 <;>
    · split at hk1
      · exact h01 ((congrArg Prod.fst hk1).trans (congrArg Prod.snd hk1).symm)
      · exact h01 ((congrArg Prod.snd hk1).trans (congrArg Prod.fst hk1).symm)
  have hfy := (fne y hyv m m' i1 i2).2 hne
  have := List.all_zero_of_le_zero_le_of_sum_eq_zero nn hs (List.mem_map.2 ⟨y, hyv, rfl⟩)
  rcases mul_eq_zero.1 this with h0 | h0
  · exact r0 h0
  · exact hfy (by exact_mod_cast h0)

end AtomTk
