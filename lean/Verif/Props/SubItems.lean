import Verif.Model.SubItems
import Verif.Props.SubTrans
import Verif.Props.Conf

/-! # C128 (subtransitions as a dictionary), C129 (assigning and deleting them), C130 (saving and loading) -/

namespace AtomTk
open Util Strengths World

section
variable {τ : Type}

/-- The methods that read the subtransitions, called with the dictionary `d` in the state `w`, show the entries `L`, each key once,
and leave `L` and the state `w'`. -/
structure Listing (pop : SubDict τ → PyM (SubDict τ)) (d : SubDict τ) (w w' : World) (L : List ((Str × Str) × τ)) : Prop where
  items : subItems pop d w = (w', .ok (L, L))
  keys : subKeys' pop d w = (w', .ok (L, L.map (·.1)))
  vals : subVals pop d w = (w', .ok (L, L.map (·.2)))
  len : subLen pop d w = (w', .ok (L, L.length))
  mem : ∀ k, subHas pop d k w = (w', .ok (L, decide (k ∈ L.map (·.1))))
  once : (L.map (·.1)).Nodup

theorem listing_of {pop : SubDict τ → PyM (SubDict τ)} {d L : SubDict τ} {w w' : World} (h : pop d w = (w', .ok L))
    (hn : L.keys.Nodup) : Listing pop d w w' L := by
  refine ⟨?_, ?_, ?_, ?_, fun k => ?_, hn⟩
  · unfold subItems; rw [PyM.bind_ok h]; rfl
  · unfold subKeys'; rw [PyM.bind_ok h]; rfl
  · unfold subVals; rw [PyM.bind_ok h]; rfl
  · unfold subLen; rw [PyM.bind_ok h]; rfl
  · unfold subHas; rw [PyM.bind_ok h]; rfl

theorem subGet_of {pop : SubDict τ → PyM (SubDict τ)} {d L : SubDict τ} {w w' : World} (h : pop d w = (w', .ok L)) (k : Str × Str) :
    subGet pop d k w = (w', (subItem L k).map (fun x => (L, x))) := by
  unfold subGet
  rw [PyM.bind_ok h]
  cases hx : subItem L k with
  | error e => rfl
  | ok x => rfl

theorem subItem_exchanged {L : SubDict τ} {k : Str × Str} {x : τ} (hn : L.keys.Nodup) (h : (k, x) ∈ L) :
    subItem L (k.2, k.1) = .ok x := by
  unfold subItem
  rw [show ((k.2, k.1).2, (k.2, k.1).1) = k from rfl, Dict.get?_of_mem hn h]

end

/-! ## Populating twice -/

theorem assertSubs_id {w : World} {i : Nat} (h : (w.lv i).subs ≠ []) : assertSubs i w = (w, .ok ()) := by
  have h0 : (w.lv i).subs.length ≠ 0 := by simpa using h
  have hl : lazyHF i w = (w, .ok ()) := by
    unfold lazyHF
    rw [if_neg h0]
  unfold assertSubs
  rw [PyM.bind_ok hl, PyM.bind_ok (show PyM.get w = (w, .ok w) from rfl), if_neg h0]
  rfl

theorem assertZs_id {w : World} {j : Nat} (h : (w.hf j).subs ≠ []) : assertZs j w = (w, .ok ()) := by
  have h0 : (w.hf j).subs.length ≠ 0 := by simpa using h
  have hl : lazyZ j w = (w, .ok ()) := by
    unfold lazyZ
    rw [if_neg h0]
  unfold assertZs
  rw [PyM.bind_ok hl, PyM.bind_ok (show PyM.get w = (w, .ok w) from rfl), if_neg h0]
  rfl

/-- A second computation in the state left by the first gives the same and changes nothing. -/
theorem hSubs_again {W : Wig} {w w' : World} (h : SubInv w) {t : Nat} {J J' : ℚ} (hs : SubReady w t J J')
    {L : SubDict HTr} (hp : hSubs W t [] w = (w', .ok L)) : hSubs W t L w' = (w', .ok L) := by
  by_cases hL : L = []
  · obtain ⟨w1, a1, a2, a3, a4, -⟩ := assertSubs_ok h hs.hI hs.in1 hs.hJ1 hs.s1 hs.F1
    have hs1 := hs.frame a2
    obtain ⟨w2, b1, b2, b3, b4, -⟩ := assertSubs_ok a3 hs1.hI hs1.in2 hs1.hJ2 hs1.s2 hs1.F2
    have e1 : (w1.tr t).e1 = (w.tr t).e1 := by rw [a2.tr]
    have b5 := assertSubs_keep b3 b2 hs1.hI hs1.hJ1 hs1.s1 hs1.F1 (by rw [e1, a2.I]; exact a4) b1
    have hpop : ∀ v, hSubs W t [] v = (assertSubs (v.tr t).e1 >>= fun _ => assertSubs (v.tr t).e2 >>= fun _ => PyM.get >>= fun u =>
        PyM.lift (u.popHTrs W t)) v := by
      intro v
      unfold hSubs
      rw [if_pos (by rfl), PyM.bind_ok (show PyM.get v = (v, .ok v) from rfl)]
    have e2 : (w1.tr t).e2 = (w.tr t).e2 := by rw [a2.tr]
    rw [e2] at b1
    rw [hpop, PyM.bind_ok a1, PyM.bind_ok b1, PyM.bind_ok (show PyM.get w2 = (w2, .ok w2) from rfl)] at hp
    have hw : w2 = w' := congrArg Prod.fst hp
    subst hw
    rw [hL, hpop]
    have n1 : (w2.lv (w2.tr t).e1).subs ≠ [] := by
      rw [b2.tr]
      intro h0
      rw [h0] at b5
      exact hfFs_ne (hs1.frame b2).hI hs1.s1 (by simpa [Dict.keys] using b5.symm)
    have n2 : (w2.lv (w2.tr t).e2).subs ≠ [] := by
      rw [b2.tr]
      intro h0
      rw [h0] at b4
      exact hfFs_ne hs1.hI hs1.s2 (by simpa [Dict.keys] using b4.symm)
    rw [PyM.bind_ok (assertSubs_id n1), PyM.bind_ok (assertSubs_id n2), PyM.bind_ok (show PyM.get w2 = (w2, .ok w2) from rfl), hp, hL]
  · unfold hSubs
    rw [if_neg (by simpa using hL)]
    rfl

theorem zSubs_again {W : Wig} {w w' : World} (h : SubInv w) {x : HTr} {i1 i2 : Nat} {J1 F1 J2 F2 : ℚ}
    (hr : ZReady w x i1 i2 J1 F1 J2 F2) {L : SubDict ZTr} (hp : zSubs W x [] w = (w', .ok L)) : zSubs W x L w' = (w', .ok L) := by
  by_cases hL : L = []
  · obtain ⟨w1, a1, a2, a3, a4⟩ := assertZs_ok h hr.hJ1 hr.hF1 hr.s1
    have hr1 := hr.frame a2
    obtain ⟨w2, b1, b2, b3, b4⟩ := assertZs_ok a3 hr1.hJ2 hr1.hF2 hr1.s2
    have hr2 := hr1.frame b2
    have b5 := assertZs_keep b3 hr2.hJ1 hr2.hF1 hr2.s1 a4 b1
    have hpop : ∀ v, zSubs W x [] v = (assertZs x.e1 >>= fun _ => assertZs x.e2 >>= fun _ => PyM.get >>= fun u =>
        PyM.lift (u.popZTrs W x)) v := by
      intro v
      unfold zSubs
      rw [if_pos (by rfl)]
    rw [hpop, PyM.bind_ok a1, PyM.bind_ok b1, PyM.bind_ok (show PyM.get w2 = (w2, .ok w2) from rfl)] at hp
    have hw : w2 = w' := congrArg Prod.fst hp
    subst hw
    rw [hL, hpop]
    have n1 : (w2.hf x.e1).subs ≠ [] := by
      intro h0
      rw [h0] at b5
      exact zMs_ne hr.s1 (by simpa [Dict.keys] using b5.symm)
    have n2 : (w2.hf x.e2).subs ≠ [] := by
      intro h0
      rw [h0] at b4
      exact zMs_ne hr.s2 (by simpa [Dict.keys] using b4.symm)
    rw [PyM.bind_ok (assertZs_id n1), PyM.bind_ok (assertZs_id n2), PyM.bind_ok (show PyM.get w2 = (w2, .ok w2) from rfl), hp, hL]
  · unfold zSubs
    rw [if_neg (by simpa using hL)]
    rfl

/-! ## C128 -/

/-- C128 in full: the methods describe one dictionary, which holds each subtransition under the names of its lower and upper ends;
`key in transition` holds exactly when `transition[key]` returns; and a Zeeman transition has length 0. -/
def C128_full : Prop :=
  (∀ (W : Wig) (w : World) (t : Nat) (J J' : ℚ), W.Good → Reachable w → SubReady w t J J' →
    ∃ w' L, Listing (hSubs W t) [] w w' L ∧ Listing (hSubs W t) L w' w' L ∧
      (∀ p ∈ L, p.1 = (w'.hName p.2.lower, w'.hName p.2.upper)) ∧
      ∀ k, (∃ x, subGet (hSubs W t) L k w' = (w', .ok (L, x))) ↔ k ∈ L.map (·.1)) ∧
  ∀ w : World, (subLen (noSubs (τ := ZTr)) [] w).2 = .ok ([], 0)

/-- C128 for the hyperfine transitions of a transition.  Missing: `transition[key]` also accepts keys the other way round. -/
theorem C128_hyperfine_partial {W : Wig} (hW : W.Good) {w : World} (hr : Reachable w) {t : Nat} {J J' : ℚ} (hs : SubReady w t J J') :
    ∃ w' L, Listing (hSubs W t) [] w w' L ∧ Listing (hSubs W t) L w' w' L ∧
      (∀ p ∈ L, p.1 = (w'.hName p.2.lower, w'.hName p.2.upper)) ∧
      (∀ k, (∃ x, subGet (hSubs W t) L k w' = (w', .ok (L, x))) ↔ k ∈ L.map (·.1) ∨ (k.2, k.1) ∈ L.map (·.1)) ∧
      ∀ p ∈ L, subGet (hSubs W t) L (p.1.2, p.1.1) w' = (w', .ok (L, p.2)) := by
  obtain ⟨w', L, h1, h2, h3, h4, h5, -, -, h8, -⟩ := hSubs_spec hW hr.subInv hs
  have ha := hSubs_again hr.subInv hs h1
  refine ⟨w', L, listing_of h1 h5, listing_of ha h5, ?_, ?_, ?_⟩
  · rintro ⟨k, x⟩ hp
    obtain ⟨-, -, -, -, -, -, -, -, -, i⟩ := h8 k x (Dict.get?_of_mem h5 hp)
    exact i.symm
  · intro k
    rw [subGet_of ha]
    unfold subItem
    cases hg : L.get? (k.2, k.1) with
    | some y =>
      exact ⟨fun _ => .inr (List.mem_map.2 ⟨_, Dict.mem_of_get? hg, rfl⟩), fun _ => ⟨y, rfl⟩⟩
    | none =>
      have hno : (k.2, k.1) ∉ L.map (·.1) := fun hm => by
        obtain ⟨y, hy⟩ := (Dict.get?_isSome L _).2 hm
        rw [hy] at hg; cases hg
      cases hk : L.get? k with
      | some y =>
        rw [Dict.getE_ok.2 hk]
        exact ⟨fun _ => .inl (List.mem_map.2 ⟨_, Dict.mem_of_get? hk, rfl⟩), fun _ => ⟨y, rfl⟩⟩
      | none =>
        have hno' : k ∉ L.map (·.1) := fun hm => by
          obtain ⟨y, hy⟩ := (Dict.get?_isSome L _).2 hm
          rw [hy] at hk; cases hk
        constructor
        · rintro ⟨x, hx⟩
          exfalso
          cases he : L.getE k with
          | ok v => rw [Dict.getE_ok, hk] at he; cases he
          | error e => simp [he, Except.map] at hx
        · rintro (h | h)
          · exact absurd h hno'
          · exact absurd h hno
  · rintro ⟨k, x⟩ hp
    rw [subGet_of ha, subItem_exchanged h5 hp]
    rfl

/-- C128 for the Zeeman transitions of a hyperfine transition. -/
theorem C128_zeeman_partial {W : Wig} (hW : W.Good) {w : World} (hr : Reachable w) {x : HTr} {i i' : Nat} {J F J' F' : ℚ} (hI : IsSpin w.I)
    (hJ : IsSpin J) (hJ' : IsSpin J') (h1 : IsHyp w i J x.e1 F) (h2 : IsHyp w i' J' x.e2 F') :
    ∃ w' L, Listing (zSubs W x) [] w w' L ∧ Listing (zSubs W x) L w' w' L ∧
      (∀ p ∈ L, p.1 = (w'.zName p.2.lower, w'.zName p.2.upper)) ∧
      ∀ p ∈ L, subGet (zSubs W x) L (p.1.2, p.1.1) w' = (w', .ok (L, p.2)) := by
  have hz := IsHyp.zready hI hJ hJ' h1 h2
  obtain ⟨w', L, e1, e2, e3, e4, e5, -, -, e8, -⟩ := zSubs_spec hW hr.subInv hz
  have ha := zSubs_again hr.subInv hz e1
  refine ⟨w', L, listing_of e1 e5, listing_of ha e5, ?_, ?_⟩
  · rintro ⟨k, y⟩ hp
    obtain ⟨-, -, -, -, -, -, -, -, -, i⟩ := e8 k y (Dict.get?_of_mem e5 hp)
    exact i.symm
  · rintro ⟨k, y⟩ hp
    rw [subGet_of ha, subItem_exchanged e5 hp]
    rfl

/-- C128: a Zeeman transition has no subtransitions, and every method raises `AssertionError` instead of showing none; so does the
truth value of the transition, which is its length. -/
theorem C128_lowest_raises {τ : Type} (w : World) :
    subLen (noSubs (τ := τ)) [] w = (w, .error .AssertionError) ∧ subKeys' (noSubs (τ := τ)) [] w = (w, .error .AssertionError) ∧
    subVals (noSubs (τ := τ)) [] w = (w, .error .AssertionError) ∧ subItems (noSubs (τ := τ)) [] w = (w, .error .AssertionError) ∧
    ∀ k, subHas (noSubs (τ := τ)) [] k w = (w, .error .AssertionError) ∧ subGet (noSubs (τ := τ)) [] k w = (w, .error .AssertionError) :=
  ⟨rfl, rfl, rfl, rfl, fun _ => ⟨rfl, rfl⟩⟩

/-- Every key in `dAtom` begins with a hyperfine level of the ground state. -/
theorem dAtom_keys {w' : World} {L : SubDict HTr} (hd : hSubs exactWig 0 [] dAtom = (w', .ok L)) {k : Str × Str} (hk : k ∈ L.keys) :
    ∃ F ∈ hfFs dAtom.I (1/2), k.1 = fKey F := by
  obtain ⟨w2, d2, h1, h2, h3, h4, h5, h6, h7, h8, -⟩ := hSubs_spec exactWig_good dAtom_reachable.subInv dAtom_ready
  rw [hd] at h1
  simp only [Prod.mk.injEq, Except.ok.injEq] at h1
  obtain ⟨rfl, rfl⟩ := h1
  obtain ⟨x, hx⟩ := (Dict.get?_isSome L _).2 hk
  obtain ⟨a, b, F, F', i1, i2, -, i4, -, i5⟩ := h8 k x hx
  have m1 := i1.mem; have m2 := i2.mem
  rw [h2.I] at m1 m2
  have ltE : ∀ F ∈ hfFs dAtom.I (1/2), ∀ F' ∈ hfFs dAtom.I (3/2), dAtom.hypE (dAtom.tr 0).e1 (1/2) F < dAtom.hypE (dAtom.tr 0).e2 (3/2) F' := by
    decide +kernel
  refine ⟨F, m1, ?_⟩
  rw [← i5, i4, hKey_of i1 i2, if_pos (by rw [h2.tr, h2.hypE, h2.hypE]; exact ltE F m1 F' m2)]

/-- C128 fails: `t[('F=3', 'F=2')]` is a line of the D2 line of an atom with I = 3/2 although `('F=3', 'F=2') in t` is false. -/
theorem C128_exchanged_fails : ∃ w' L x, Listing (hSubs exactWig 0) [] dAtom w' L ∧
    subGet (hSubs exactWig 0) L ("F=3".toList, "F=2".toList) w' = (w', .ok (L, x)) ∧ Connects w' x 2 3 ∧
    subHas (hSubs exactWig 0) L ("F=3".toList, "F=2".toList) w' = (w', .ok (L, false)) := by
  obtain ⟨w', L, hd, h2, h3, h4, h5, h6, h7, h8, h9⟩ := hSubs_spec exactWig_good dAtom_reachable.subInv dAtom_ready
  have ha := hSubs_again dAtom_reachable.subInv dAtom_ready hd
  obtain ⟨a, b, ea, eb, hg⟩ := dAtom_pair hd (F := 2) (F' := 3) (by decide +kernel) (by decide +kernel) dAtom_coupled
  have e2 : fKey 2 = "F=2".toList := by decide +kernel
  have e3 : fKey 3 = "F=3".toList := by decide +kernel
  refine ⟨w', L, w'.mkHTr 0 a b (1/2) 2 (3/2) 3, listing_of hd h5, ?_, ⟨ea.F, eb.F⟩, ?_⟩
  · rw [subGet_of ha, ← e2, ← e3, subItem_exchanged h5 (Dict.mem_of_get? hg)]
    rfl
  · have hno : ("F=3".toList, "F=2".toList) ∉ L.map (·.1) := by
      intro hm
      obtain ⟨F, hF, e⟩ := dAtom_keys hd hm
      have : ∀ F ∈ hfFs dAtom.I (1/2), "F=3".toList ≠ fKey F := by decide +kernel
      exact this F hF e
    rw [(listing_of ha h5).mem, decide_eq_false hno]

theorem C128_fails : ¬C128_full := by
  rintro ⟨h, -⟩
  obtain ⟨w', L, x, hl, hg, -, hh⟩ := C128_exchanged_fails
  obtain ⟨w2, L2, g1, g2, -, g4⟩ := h exactWig dAtom 0 (1/2) (3/2) exactWig_good dAtom_reachable dAtom_ready
  have e := hl.items.symm.trans g1.items
  simp only [Prod.mk.injEq, Except.ok.injEq] at e
  obtain ⟨rfl, rfl, -⟩ := e
  have hm := (g4 _).1 ⟨x, hg⟩
  rw [g2.mem, decide_eq_true hm] at hh
  simp at hh

/-! ## C129 -/

section
variable {τ : Type}

/-- C129 in full, for the hyperfine transitions of a transition whose dictionary is `d`, empty or computed: after `t[k] = x`, `t[k]` is `x`
and the other entries are those listed before; after `del t[k]` of an entry listed, `k` is not listed and the others are. -/
def C129_full : Prop := ∀ (W : Wig) (w : World) (t : Nat) (J J' : ℚ), W.Good → Reachable w → SubReady w t J J' →
  ∀ (d L : SubDict HTr) (w' : World), Listing (hSubs W t) d w w' L →
    (∀ k x, (∃ v d', subGet (hSubs W t) (subSet d k x) k w = (v, .ok (d', x))) ∧
      ∃ v L', Listing (hSubs W t) (subSet d k x) w v L' ∧ ∀ p, p.1 ≠ k → (p ∈ L' ↔ p ∈ L)) ∧
    ∀ k ∈ L.keys, ∃ d', subDel d k = .ok d' ∧ ∃ v L', Listing (hSubs W t) d' w v L' ∧ k ∉ L'.map (·.1) ∧ ∀ p, p.1 ≠ k → (p ∈ L' ↔ p ∈ L)

/-- A computation that leaves a dictionary alone that is not empty. -/
def Lazy (pop : SubDict τ → PyM (SubDict τ)) : Prop := ∀ d w, d ≠ [] → pop d w = (w, .ok d)

theorem hSubs_lazy (W : Wig) (t : Nat) : Lazy (hSubs W t) := by
  intro d w h
  unfold hSubs
  rw [if_neg (by simpa using h)]
  rfl

theorem zSubs_lazy (W : Wig) (x : HTr) : Lazy (zSubs W x) := by
  intro d w h
  unfold zSubs
  rw [if_neg (by simpa using h)]
  rfl

theorem noSubs_lazy : Lazy (noSubs (τ := τ)) := by
  intro d w h
  unfold noSubs
  rw [if_neg (by simpa using h)]
  rfl

theorem dset_ne (d : SubDict τ) (k : Str × Str) (x : τ) : d.set k x ≠ [] := by
  intro h
  have : (d.set k x).get? k = some x := by rw [Dict.get?_set]; simp
  rw [h] at this
  simp [Dict.get?] at this

/-- C129, assigning to a transition that has its subtransitions: the entry is the one given, the others are as before; `t[k]` is the one
given unless there is an entry with the names exchanged. -/
theorem C129_set_partial {pop : SubDict τ → PyM (SubDict τ)} (hp : Lazy pop) (w : World) {d : SubDict τ} (hn : d.keys.Nodup) (hd : d ≠ [])
    (k : Str × Str) (x : τ) :
    Listing pop d w w d ∧
    ∃ L, Listing pop (subSet d k x) w w L ∧ (k, x) ∈ L ∧ (∀ p, p.1 ≠ k → (p ∈ L ↔ p ∈ d)) ∧
      (((k.2, k.1) ∉ d.keys ∨ k.1 = k.2) → subGet pop (subSet d k x) k w = (w, .ok (L, x))) ∧
      ∀ y, ((k.2, k.1), y) ∈ d → k.1 ≠ k.2 → subGet pop (subSet d k x) k w = (w, .ok (L, y)) := by
  have hs : pop (subSet d k x) w = (w, .ok (d.set k x)) := hp _ w (dset_ne d k x)
  have hn' : (d.set k x).keys.Nodup := Dict.nodup_set hn k x
  refine ⟨listing_of (hp d w hd) hn, d.set k x, listing_of hs hn', Dict.mem_of_get? (by rw [Dict.get?_set]; simp), ?_, ?_, ?_⟩
  · rintro ⟨k', v⟩ hk
    simp only at hk
    rw [Dict.mem_iff hn', Dict.get?_set, if_neg (Ne.symm hk), ← Dict.mem_iff hn]
  · intro h
    rw [subGet_of hs]
    unfold subItem
    by_cases he : k.1 = k.2
    · have : (k.2, k.1) = k := by rw [← he]; exact Prod.ext rfl he
      rw [this, Dict.get?_set, if_pos rfl]
      rfl
    · have hno : (k.2, k.1) ∉ d.keys := h.resolve_right he
      have h1 : (k.2, k.1) ≠ k := fun h0 => he (congrArg Prod.snd h0)
      rw [Dict.get?_set, if_neg (Ne.symm h1)]
      cases hg : d.get? (k.2, k.1) with
      | some y => exact absurd ((Dict.get?_isSome d _).1 ⟨y, hg⟩) hno
      | none =>
        simp only
        rw [Dict.getE_ok.2 (by rw [Dict.get?_set, if_pos rfl])]
        rfl
  · intro y hy he
    rw [subGet_of hs]
    unfold subItem
    have h1 : (k.2, k.1) ≠ k := fun h0 => he (congrArg Prod.snd h0)
    rw [Dict.get?_set, if_neg (Ne.symm h1), Dict.get?_of_mem hn hy]
    rfl

/-- C129, deleting one of several entries of a transition that has its subtransitions. -/
theorem C129_del_partial {pop : SubDict τ → PyM (SubDict τ)} (hp : Lazy pop) (w : World) {d : SubDict τ} (hn : d.keys.Nodup)
    {k k' : Str × Str} (hk : k ∈ d.keys) (hk' : k' ∈ d.keys) (hne : k' ≠ k) :
    Listing pop d w w d ∧
    ∃ L, subDel d k = .ok L ∧ Listing pop L w w L ∧ k ∉ L.map (·.1) ∧ ∀ p, p.1 ≠ k → (p ∈ L ↔ p ∈ d) := by
  have hd : d ≠ [] := by rintro rfl; simp [Dict.keys] at hk
  have hL : d.del k ≠ [] := by
    intro h
    have : k' ∈ (d.del k).keys := by rw [Dict.keys_del]; simp [hk', hne]
    rw [h] at this
    simp [Dict.keys] at this
  refine ⟨listing_of (hp d w hd) hn, d.del k, ?_, listing_of (hp _ w hL) (Dict.nodup_del hn k), ?_, ?_⟩
  · unfold subDel
    rw [if_pos ((Dict.has_iff d k).2 hk)]
  · have : k ∉ (d.del k).keys := by rw [Dict.keys_del]; simp
    exact this
  · rintro ⟨k2, v⟩ hk2
    simp only at hk2
    rw [Dict.mem_iff (Dict.nodup_del hn k), Dict.get?_del, if_neg hk2, ← Dict.mem_iff hn]

/-- C129, an unknown key: deleting it raises `KeyError`, whatever the state of the dictionary. -/
theorem C129_unknown {d : SubDict τ} {k : Str × Str} (hk : k ∉ d.keys) : subDel d k = .error .KeyError := by
  unfold subDel
  rw [if_neg (by rw [Dict.has_iff]; exact hk)]

/-- C129 fails on a transition that has not been read: an entry assigned is the only one, and stays so. -/
theorem C129_first_set {pop : SubDict τ → PyM (SubDict τ)} (hp : Lazy pop) (w : World) (k : Str × Str) (x : τ) :
    Listing pop (subSet [] k x) w w [(k, x)] :=
  listing_of (hp _ w (dset_ne [] k x)) (by simp [Dict.keys])

/-- C129 fails for the last entry: after its deletion the transition lists what one lists that has not been read. -/
theorem C129_last_del {pop : SubDict τ → PyM (SubDict τ)} {w w' : World} {k : Str × Str} {x : τ} {L : SubDict τ}
    (h : Listing pop [] w w' L) : ∃ d, subDel [(k, x)] k = .ok d ∧ Listing pop d w w' L := by
  refine ⟨[], ?_, h⟩
  unfold subDel
  rw [if_pos ((Dict.has_iff _ _).2 (by simp [Dict.keys]))]
  simp [Dict.del]

end

/-- C129 fails: a line of the D2 line can be listed, but not deleted from a transition that has not been read before. -/
theorem C129_fails : ¬C129_full := by
  intro h
  obtain ⟨w', L, x, hl, -⟩ := C128_exchanged_fails
  have hd : hSubs exactWig 0 [] dAtom = (w', .ok L) := by
    have := hl.items
    unfold subItems at this
    rcases hp : hSubs exactWig 0 [] dAtom with ⟨v, r⟩
    cases r with
    | error e => rw [PyM.bind_err hp] at this; cases this
    | ok d => rw [PyM.bind_ok hp] at this; cases this; rfl
  obtain ⟨a, b, ea, eb, hg⟩ := dAtom_pair hd (F := 2) (F' := 3) (by decide +kernel) (by decide +kernel) dAtom_coupled
  obtain ⟨d', hd', -⟩ := (h exactWig dAtom 0 (1/2) (3/2) exactWig_good dAtom_reachable dAtom_ready [] L w' hl).2 _
    ((Dict.get?_isSome L _).1 ⟨_, hg⟩)
  rw [C129_unknown (by simp [Dict.keys])] at hd'
  cases hd'

/-- The hypotheses of `C129_set_partial` and `C129_del_partial`: the two lines F = 1 to F' = 2 and F = 2 to F' = 1 of `dAtom`; assigning the
first again does not help, the second is returned in its place. -/
example : ∃ w' L x y, hSubs exactWig 0 [] dAtom = (w', .ok L) ∧ (fKey 1, fKey 2) ∈ L.keys ∧ (fKey 2, fKey 1) ∈ L.keys ∧
    Connects w' x 1 2 ∧ Connects w' y 2 1 ∧
    subGet (hSubs exactWig 0) (subSet L (fKey 1, fKey 2) x) (fKey 1, fKey 2) w' = (w', .ok (L.set (fKey 1, fKey 2) x, y)) := by
  obtain ⟨w', L, hd, h2, h3, h4, h5, h6, h7, h8, h9⟩ := hSubs_spec exactWig_good dAtom_reachable.subInv dAtom_ready
  obtain ⟨a, b, ha, hb, hg⟩ := dAtom_pair hd (F := 1) (F' := 2) (by decide +kernel) (by decide +kernel) dAtom_12
  obtain ⟨a', b', ha', hb', hg'⟩ := dAtom_pair hd (F := 2) (F' := 1) (by decide +kernel) (by decide +kernel) dAtom_21
  refine ⟨w', L, w'.mkHTr 0 a b (1/2) 1 (3/2) 2, w'.mkHTr 0 a' b' (1/2) 2 (3/2) 1, hd, (Dict.get?_isSome L _).1 ⟨_, hg⟩, (Dict.get?_isSome L _).1 ⟨_, hg'⟩, ⟨ha.F, hb.F⟩, ⟨ha'.F, hb'.F⟩, ?_⟩
  have hne : L ≠ [] := by rintro rfl; simp [Dict.get?] at hg
  obtain ⟨-, L', hl, -, -, -, h⟩ := C129_set_partial (hSubs_lazy exactWig 0) w' h5 hne (fKey 1, fKey 2) (w'.mkHTr 0 a b (1/2) 1 (3/2) 2)
  have e := hl.items.symm.trans (listing_of (hSubs_lazy exactWig 0 (subSet L (fKey 1, fKey 2) _) w' (dset_ne L _ _)) (Dict.nodup_set h5 _ _)).items
  simp only [Prod.mk.injEq, Except.ok.injEq, true_and, and_self] at e
  subst e
  exact h _ (Dict.mem_of_get? hg') (by decide +kernel)

/-! ## C130 -/

/-- C130 in full: an atom saved under a name is loaded by that name; nothing else that is on the disk changes. -/
def C130_full : Prop := ∀ (disk : Disk) (name : Str) (w : World) (f : Str),
  loadAtom (saveAtom disk name w (some f)) f = .ok (name, w) ∧ ∀ g, g ≠ f → loadAtom (saveAtom disk name w (some f)) g = loadAtom disk g

/-- C130: the atom is loaded by the name of the file written (C61 says which that is) and other files are as before.  Missing: the name
given to `save` need not be the one of the file. -/
theorem C130_partial (disk : Disk) (name : Str) (w : World) (f : Option Str) :
    loadAtom (saveAtom disk name w f) (saveName name f) = .ok (name, w) ∧
    ∀ g, g ≠ saveName name f → loadAtom (saveAtom disk name w f) g = loadAtom disk g := by
  constructor
  · unfold loadAtom saveAtom
    rw [Dict.get?_set, if_pos rfl]
  · intro g hg
    unfold loadAtom saveAtom
    rw [Dict.get?_set, if_neg (Ne.symm hg)]

/-- C130: when the name ends in `.atom` and has no other dot, it is the name of the file. -/
theorem C130_named_partial (disk : Disk) (name : Str) (w : World) (a : Str) (ha : '.' ∉ a) :
    loadAtom (saveAtom disk name w (some (a ++ dotAtom))) (a ++ dotAtom) = .ok (name, w) := by
  have h := C130_partial disk name w (some (a ++ dotAtom))
  rcases C61_rule name (a ++ dotAtom) with ⟨e, -⟩ | ⟨-, h0⟩
  · rw [e] at h; exact h.1
  · exact absurd ⟨a, [], by simp, ha, .inl rfl⟩ h0

/-- C130: a name without a dot is not that of the file: loading by it fails, or gives what was there before. -/
theorem C130_plain (disk : Disk) (name : Str) (w : World) (f : Str) (hf : '.' ∉ f) :
    loadAtom (saveAtom disk name w (some f)) f = loadAtom disk f ∧ loadAtom (saveAtom disk name w (some f)) (f ++ dotAtom) = .ok (name, w) := by
  have h := C130_partial disk name w (some f)
  rcases C61_rule name f with ⟨-, a, b, rfl, -, -⟩ | ⟨e, -⟩
  · exact absurd (by simp [dotAtom]) hf
  · rw [e] at h
    exact ⟨h.2 f (by simp [dotAtom]), h.1⟩

/-- C130: what is not an atom is refused. -/
theorem C130_refused (disk : Disk) (f : Str) : (disk.get? f = none → loadAtom disk f = .error .FileNotFoundError) ∧
    (disk.get? f = some .other → loadAtom disk f = .error .OSError) ∧
    (disk.get? f = some .junk → loadAtom disk f = .error .UnpicklingError) := by
  refine ⟨?_, ?_, ?_⟩ <;> intro h <;> unfold loadAtom <;> rw [h]

theorem C130_fails : ¬C130_full := by
  intro h
  have h1 := (h [] ['K'] (emptyAtom 0 0) ['x']).1
  rw [(C130_plain [] ['K'] (emptyAtom 0 0) ['x'] (by decide)).1] at h1
  unfold loadAtom at h1
  simp [Dict.get?] at h1

example : saveName ['K'] (some "x".toList) = "x.atom".toList ∧ saveName ['K'] none = "K.atom".toList ∧
    saveName ['K'] (some "./x.atom".toList) = "./x.atom.atom".toList := by decide +kernel

end AtomTk
