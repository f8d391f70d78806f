import Verif.Model.Items
import Verif.Proofs.SubTrans
import Verif.Props.Subs
import Verif.Props.TransList
import Verif.Props.Level

/-! # C116-C119: sublevels as dictionaries, deleting sublevels and transitions, the constructor of `Atom` -/

namespace AtomTk
open Util World

/-! ## C116 -/

/-- The values of an arithmetic progression with step one. -/
def Steps (a : ℚ) (l : List ℚ) : Prop := ∀ n (h : n < l.length), l[n] = a + n

theorem steps_arange (a b : ℚ) : Steps a (arange a b) := by
  intro n h
  simp only [arange, List.getElem_map, List.getElem_range]

/-- The dictionary methods of a level agree: `items()` gives keys and sublevels, `keys()` and iteration the keys, `values()` and
`sublevels()` the sublevels, `len()` their number. -/
def Agree {α : Type} (items : PyM (List (Str × α))) (keys : PyM (List Str)) (subs : PyM (List α)) (len : PyM Nat)
    (w w' : World) (l : List (Str × α)) : Prop :=
  items w = (w', .ok l) ∧ keys w = (w', .ok (l.map Prod.fst)) ∧ subs w = (w', .ok (l.map Prod.snd)) ∧ len w = (w', .ok l.length)

theorem agree_lv {w w' : World} {i : Nat} (h : lazyHF i w = (w', .ok ())) :
    Agree (lvItems i) (lvKeys i) (lvSubs i) (lvLen i) w w' (w'.lv i).subs := by
  refine ⟨?_, ?_, ?_, ?_⟩
  · unfold lvItems; rw [PyM.bind_ok h]; rfl
  · unfold lvKeys; rw [PyM.bind_ok h]; rfl
  · unfold lvSubs; rw [PyM.bind_ok h]; rfl
  · unfold lvLen; rw [PyM.bind_ok h]; rfl

theorem agree_hf {w w' : World} {j : Nat} (h : lazyZ j w = (w', .ok ())) :
    Agree (hfItems j) (hfKeys j) (hfSubs j) (hfLen j) w w' (w'.hf j).subs := by
  refine ⟨?_, ?_, ?_, ?_⟩
  · unfold hfItems; rw [PyM.bind_ok h]; rfl
  · unfold hfKeys; rw [PyM.bind_ok h]; rfl
  · unfold hfSubs; rw [PyM.bind_ok h]; rfl
  · unfold hfLen; rw [PyM.bind_ok h]; rfl

theorem lazyHF_again {w : World} {i : Nat} (h : (w.lv i).subs ≠ []) : lazyHF i w = (w, .ok ()) := by
  unfold lazyHF
  rw [if_neg (by simpa using h)]

theorem lazyZ_again {w : World} {j : Nat} (h : (w.hf j).subs ≠ []) : lazyZ j w = (w, .ok ()) := by
  unfold lazyZ
  rw [if_neg (by simpa using h)]

/-- A fine-structure level of the atom lists its hyperfine levels in the order of F, `2 min(I, J) + 1` of them; every entry is
what `level[key]` returns, and asking again gives the same objects. -/
theorem C116_hyperfine {w : World} (hr : Reachable w) (hI : IsSpin w.I) {i : Nat} {J : ℚ} (hf : Findable w i J) :
    ∃ w' l, Agree (lvItems i) (lvKeys i) (lvSubs i) (lvLen i) w w' l ∧ (l.length : ℚ) = 2 * min w.I J + 1 ∧
      (∃ Fs, Steps |J - w.I| Fs ∧ l.map Prod.fst = Fs.map (fun F => "F=".toList ++ numToFrac F)) ∧
      (∀ k j, (k, j) ∈ l → refItem (.fine i) k w' = (w', .ok (.hyp j))) ∧
      Agree (lvItems i) (lvKeys i) (lvSubs i) (lvLen i) w' w' l := by
  have hin := (hr.wf.node _ _ hf.reg).2.1
  obtain ⟨w1, h1, h2, h3⟩ := lazyHF_ok hr.keysInv hI hin hf.hJ hf.spin hf.hF
  have hlen : ((w1.lv i).subs.length : ℚ) = 2 * min w.I J + 1 := by
    have e : (w1.lv i).subs.length = (hfFs w.I J).length := by
      have := congrArg List.length h2
      simpa [Dict.keys] using this
    rw [e]; exact (C13_multiplet w.I J hI hf.spin).2.2.1
  have hne : (w1.lv i).subs ≠ [] := by
    intro h0
    rw [h0] at hlen
    have : (0 : ℚ) ≤ min w.I J := le_min hI.nonneg hf.spin.nonneg
    simp at hlen
    linarith
  refine ⟨w1, (w1.lv i).subs, agree_lv h1, hlen, ⟨hfFs w.I J, steps_arange _ _, h2⟩, ?_, agree_lv (lazyHF_again hne)⟩
  intro k j hkj
  have hnd : (w1.lv i).subs.keys.Nodup := by rw [h2]; exact hfKeys_nodup hI hf.spin
  have hg := Dict.get?_of_mem hnd hkj
  have hk : k ∈ (hfFs w.I J).map fKey := by
    rw [← h2]; exact List.mem_map.2 ⟨_, hkj, rfl⟩
  obtain ⟨F, hF, rfl⟩ := List.mem_map.1 hk
  show lvItem i (fKey F) w1 = _
  have hmJ : isIn mJtxt (fKey F) = false :=
    isIn_false (c := 'm') (by simp [mJtxt])
      (fKey_no (hfFs_spin hI hf.spin hF).isHalfInt (by decide) (by decide) (by decide) (by decide) (by decide))
  unfold lvItem
  rw [PyM.bind_ok (lazyHF_again hne), PyM.bind_ok (show PyM.get w1 = (w1, .ok w1) from rfl), if_neg (by rw [hmJ]; simp)]
  have : PyM.lift ((w1.lv i).subs.getE (fKey F)) w1 = (w1, .ok j) := by
    unfold PyM.lift; rw [Dict.getE_ok.2 hg]
  rw [PyM.bind_ok this]; rfl

/-- A hyperfine level lists its Zeeman levels in the order of mF, `2 F + 1` of them; every entry is what `level[key]` returns,
and asking again gives the same objects. -/
theorem C116_zeeman {w : World} (hr : Reachable w) (hI : IsSpin w.I) {i : Nat} {J : ℚ} (hf : Findable w i J) {k0 : Str} {j : Nat}
    (hj : (w.lv i).subs.get? k0 = some j) :
    ∃ F w' l, (w.hf j).term.F = some F ∧ Agree (hfItems j) (hfKeys j) (hfSubs j) (hfLen j) w w' l ∧ (l.length : ℚ) = 2 * F + 1 ∧
      (∃ ms, Steps (-F) ms ∧ l.map Prod.fst = ms.map (fun m => "mF=".toList ++ numToFrac m)) ∧
      (∀ k z, (k, z) ∈ l → refItem (.hyp j) k w' = (w', .ok (.zee z))) ∧
      Agree (hfItems j) (hfKeys j) (hfSubs j) (hfLen j) w' w' l := by
  obtain ⟨F, hm, rfl, hp, ht⟩ := sub_hyp hr hf hj
  have hFs := hfFs_spin hI hf.spin hm
  have htF : (w.hf j).term.F = some F := by rw [ht]; simp [Term.withF, hf.hF]
  have htJ : (w.hf j).term.J = some J := by rw [ht]; simp [Term.withF, hf.hJ]
  obtain ⟨w1, h1, h2, h3⟩ := lazyZ_ok hr.keysInv htJ htF hFs
  have hlen : ((w1.hf j).subs.length : ℚ) = 2 * F + 1 := by
    have e : (w1.hf j).subs.length = (zMs F).length := by
      have := congrArg List.length h2
      simpa [Dict.keys] using this
    rw [e]; exact (C14_manifold F hFs).2.2.1
  have hne : (w1.hf j).subs ≠ [] := by
    intro h0
    rw [h0] at hlen
    have : (0 : ℚ) ≤ F := hFs.nonneg
    simp at hlen
    linarith
  refine ⟨F, w1, (w1.hf j).subs, htF, agree_hf h1, hlen, ⟨zMs F, steps_arange _ _, h2⟩, ?_, agree_hf (lazyZ_again hne)⟩
  intro k z hkz
  have hnd : (w1.hf j).subs.keys.Nodup := by rw [h2]; exact zKeys_nodup hFs
  have hg := Dict.get?_of_mem hnd hkz
  have hk : k ∈ (zMs F).map mKey := by
    rw [← h2]; exact List.mem_map.2 ⟨_, hkz, rfl⟩
  obtain ⟨m, hmm, rfl⟩ := List.mem_map.1 hk
  have hmJ : isIn mJtxt (mKey m) = false :=
    isIn_false (c := 'J') (by simp [mJtxt])
      (mKey_no (zMs_half hFs hmm) (by decide) (by decide) (by decide) (by decide) (by decide) (by decide))
  have h5 : hfItem j (mKey m) w1 = (w1, .ok z) := by
    unfold hfItem
    rw [PyM.bind_ok (lazyZ_again hne), PyM.bind_ok (show PyM.get w1 = (w1, .ok w1) from rfl), if_neg (by rw [hmJ]; simp)]
    unfold PyM.lift; rw [Dict.getE_ok.2 hg]
  show (hfItem j (mKey m) >>= fun k => pure (Ref.zee k)) w1 = _
  rw [PyM.bind_ok h5]; rfl

/-- A Zeeman level has nothing below it: every key is a `KeyError`, also in `levels[...]` after the three parts of its name. -/
theorem C116_nothing_below (z : Nat) (k : Str) (w : World) : refItem (.zee z) k w = (w, .error .KeyError) := rfl

/-- A level with J = 1/2 in an atom with nuclear spin 1/2, asked for its listing twice. -/
example : ∃ w, Reachable w ∧ IsSpin w.I ∧ Findable w 0 (1/2) ∧
    (lvItems 0 w).2 = .ok [("F=0".toList, 0), ("F=1".toList, 1)] ∧
    (hfItems 1 (lvItems 0 w).1).2 = .ok [("mF=-1".toList, 0), ("mF=0".toList, 1), ("mF=1".toList, 2)] := by
  refine ⟨runAll (threeLevels 0 5 9) (emptyAtom (1/2) 0), (Reachable.empty _ _).runAll (by decide +kernel), ⟨1, by decide +kernel⟩,
    ⟨by decide +kernel, by decide +kernel, by decide +kernel, ⟨1, by decide +kernel⟩, by decide +kernel, by decide +kernel⟩,
    by decide +kernel, by decide +kernel⟩

/-! ## C117 -/

/-- The full claim: a key that a level lists can be deleted, and the level then lists the others. -/
def C117_full : Prop := ∀ w w1 i k ks, Reachable w → lvKeys i w = (w1, .ok ks) → k ∈ ks →
  ∃ w2, lvDel i k w1 = (w2, .ok ()) ∧ (lvKeys i w2).2 = .ok (ks.filter (fun x => x ≠ k))

theorem getE_del {α : Type _} (d : Dict Str α) (k : Str) : (d.del k).getE k = .error .KeyError :=
  Dict.getE_err (by rw [Dict.get?_del]; simp)

/-- In every state: if the sublevels have been computed and there is another one, a hyperfine level can be deleted.  Afterwards
the level lists the others, in the same order and as the same objects; the deleted key is not found; nothing else has changed. -/
theorem C117_hyperfine_partial (w : World) (i : Nat) (k k' : Str) (hk : k ∈ (w.lv i).subs.keys)
    (hk' : k' ∈ (w.lv i).subs.keys) (hne : k' ≠ k) (hm : isIn mJtxt k = false) :
    ∃ w', lvDel i k w = (w', .ok ()) ∧
      Agree (lvItems i) (lvKeys i) (lvSubs i) (lvLen i) w' w' ((w.lv i).subs.filter (fun p => p.1 ≠ k)) ∧
      refItem (.fine i) k w' = (w', .error .KeyError) ∧
      w' = { w with lv := w'.lv } ∧ (∀ n, n ≠ i → w'.lv n = w.lv n) ∧
      w'.lv i = { w.lv i with subs := (w.lv i).subs.filter (fun p => p.1 ≠ k) } := by
  have hd : lvDel i k w = (w.setLv i { w.lv i with subs := (w.lv i).subs.del k }, .ok ()) := by
    unfold lvDel
    rw [if_pos ((Dict.has_iff _ _).2 hk)]
  set w' := w.setLv i { w.lv i with subs := (w.lv i).subs.del k } with hw'
  have hl : w'.lv i = { w.lv i with subs := (w.lv i).subs.del k } := by simp [hw', setLv, upd]
  have hs : (w'.lv i).subs = (w.lv i).subs.del k := by rw [hl]
  have hne' : (w'.lv i).subs ≠ [] := by
    intro h0
    have : k' ∈ (w'.lv i).subs.keys := by
      rw [hs, Dict.keys_del]
      exact List.mem_filter.2 ⟨hk', by simpa using hne⟩
    rw [h0] at this
    cases this
  refine ⟨w', hd, ?_, ?_, rfl, fun n hn => by simp [hw', setLv, upd, hn], hl⟩
  · have := agree_lv (lazyHF_again hne')
    rw [hs] at this
    exact this
  · show lvItem i k w' = _
    unfold lvItem
    rw [PyM.bind_ok (lazyHF_again hne'), PyM.bind_ok (show PyM.get w' = (w', .ok w') from rfl), if_neg (by rw [hm]; simp)]
    have : PyM.lift ((w'.lv i).subs.getE k) w' = (w', .error .KeyError) := by
      unfold PyM.lift; rw [hs, getE_del]
    rw [PyM.bind_err this]

/-- The same for the Zeeman levels of a hyperfine level. -/
theorem C117_zeeman_partial (w : World) (j : Nat) (k k' : Str) (hk : k ∈ (w.hf j).subs.keys)
    (hk' : k' ∈ (w.hf j).subs.keys) (hne : k' ≠ k) :
    ∃ w', hfDel j k w = (w', .ok ()) ∧
      Agree (hfItems j) (hfKeys j) (hfSubs j) (hfLen j) w' w' ((w.hf j).subs.filter (fun p => p.1 ≠ k)) ∧
      refItem (.hyp j) k w' = (w', .error .KeyError) ∧
      w' = { w with hf := w'.hf } ∧ (∀ n, n ≠ j → w'.hf n = w.hf n) ∧
      w'.hf j = { w.hf j with subs := (w.hf j).subs.filter (fun p => p.1 ≠ k) } := by
  have hd : hfDel j k w = (w.setHf j { w.hf j with subs := (w.hf j).subs.del k }, .ok ()) := by
    unfold hfDel
    rw [if_pos ((Dict.has_iff _ _).2 hk)]
  set w' := w.setHf j { w.hf j with subs := (w.hf j).subs.del k } with hw'
  have hl : w'.hf j = { w.hf j with subs := (w.hf j).subs.del k } := by simp [hw', setHf, upd]
  have hs : (w'.hf j).subs = (w.hf j).subs.del k := by rw [hl]
  have hne' : (w'.hf j).subs ≠ [] := by
    intro h0
    have : k' ∈ (w'.hf j).subs.keys := by
      rw [hs, Dict.keys_del]
      exact List.mem_filter.2 ⟨hk', by simpa using hne⟩
    rw [h0] at this
    cases this
  refine ⟨w', hd, ?_, ?_, rfl, fun n hn => by simp [hw', setHf, upd, hn], hl⟩
  · have := agree_hf (lazyZ_again hne')
    rw [hs] at this
    exact this
  · have h5 : hfItem j k w' = (w', .error .KeyError) := by
      unfold hfItem
      rw [PyM.bind_ok (lazyZ_again hne'), PyM.bind_ok (show PyM.get w' = (w', .ok w') from rfl)]
      split
      · rfl
      · unfold PyM.lift; rw [hs, getE_del]
    show (hfItem j k >>= fun k => pure (Ref.zee k)) w' = _
    rw [PyM.bind_err h5]

/-- Nothing can be deleted before the sublevels have been asked for, and a key that is not there never. -/
theorem C117_absent (w : World) (i : Nat) (k : Str) :
    (k ∉ (w.lv i).subs.keys → lvDel i k w = (w, .error .KeyError)) ∧ (k ∉ (w.hf i).subs.keys → hfDel i k w = (w, .error .KeyError)) := by
  constructor
  · intro h
    unfold lvDel
    rw [if_neg (fun hh => h ((Dict.has_iff _ _).1 hh))]
  · intro h
    unfold hfDel
    rw [if_neg (fun hh => h ((Dict.has_iff _ _).1 hh))]

/-- The last sublevel comes back: after deleting the only one, the level computes all of them anew, as different objects. -/
theorem C117_fails : ¬C117_full := by
  intro h
  obtain ⟨w2, h1, h2⟩ := h (runAll (threeLevels 0 5 9) (emptyAtom 0 0)) _ 0 "F=1/2".toList ["F=1/2".toList]
    (demo_reachable (by decide +kernel)) (show lvKeys 0 _ = ((lvKeys 0 (runAll (threeLevels 0 5 9) (emptyAtom 0 0))).1, _) from
      Prod.ext rfl (by decide +kernel)) (by simp)
  have e : w2 = (lvDel 0 "F=1/2".toList (lvKeys 0 (runAll (threeLevels 0 5 9) (emptyAtom 0 0))).1).1 := by rw [h1]
  subst e
  revert h2
  decide +kernel

example : let w := (lvItems 0 (runAll (threeLevels 0 5 9) (emptyAtom 0 0))).1
    (lvItems 0 w).2 = .ok [("F=1/2".toList, 0)] ∧ (lvItems 0 (lvDel 0 "F=1/2".toList w).1).2 = .ok [("F=1/2".toList, 1)] := by
  decide +kernel

/-- Deleting F=0 of a level with F = 0, 1. -/
example : let w := (lvItems 0 (runAll (threeLevels 0 5 9) (emptyAtom (1/2) 0))).1
    (lvItems 0 (lvDel 0 "F=0".toList w).1).2 = .ok [("F=1".toList, 1)] ∧
    (lvDel 0 "F=0".toList (runAll (threeLevels 0 5 9) (emptyAtom (1/2) 0))).2 = .error .KeyError := by
  decide +kernel

/-! ## C118 -/

namespace Graph

theorem removeEdge_err {g : Graph} {u v : Str} (h : g.adj u v = none) : g.removeEdge u v = .error .NetworkXError := by
  unfold removeEdge
  rw [if_neg (by simp [h])]

theorem get?_removeEdge {g g' : Graph} {a b : Str} (h : g.removeEdge a b = .ok g') (u : Str) :
    g'.get? u = (g.get? u).map fun r =>
      ⟨r.level, if u = a then r.nbrs.del b else if u = b then r.nbrs.del a else r.nbrs⟩ := by
  unfold removeEdge at h
  split at h
  · simp only [Except.ok.injEq] at h
    subst h
    rw [Dict.get?_map (fun n (r : NodeRec) =>
      (⟨r.level, if n = a then r.nbrs.del b else if n = b then r.nbrs.del a else r.nbrs⟩ : NodeRec))]
  · simp at h

theorem keys_removeEdge {g g' : Graph} {a b : Str} (h : g.removeEdge a b = .ok g') : g'.keys = g.keys := by
  unfold removeEdge at h
  split at h
  · simp only [Except.ok.injEq] at h
    subst h
    rw [Dict.keys_map (fun n (r : NodeRec) =>
      (⟨r.level, if n = a then r.nbrs.del b else if n = b then r.nbrs.del a else r.nbrs⟩ : NodeRec))]
  · simp at h

theorem lev_removeEdge {g g' : Graph} {a b : Str} (h : g.removeEdge a b = .ok g') (u : Str) : g'.lev u = g.lev u := by
  unfold lev
  rw [get?_removeEdge h]
  cases g.get? u <;> simp

theorem adj_removeEdge {g g' : Graph} {a b : Str} (h : g.removeEdge a b = .ok g') (u v : Str) :
    g'.adj u v = if (u = a ∧ v = b) ∨ (u = b ∧ v = a) then none else g.adj u v := by
  unfold adj
  rw [get?_removeEdge h]
  cases hg : g.get? u with
  | none => simp
  | some r =>
    simp only [Option.map_some]
    by_cases hu : u = a
    · subst hu
      simp only [if_true, true_and, Dict.get?_del]
      by_cases hv : v = b
      · simp [hv]
      · simp only [hv, if_false, false_or]
        by_cases hub : u = b ∧ v = u
        · exact absurd (hub.2.trans hub.1) hv
        · rw [if_neg hub]
    · simp only [hu, if_false, false_and, false_or]
      by_cases hb : u = b
      · subst hb
        simp only [if_true, true_and, Dict.get?_del]
      · simp [hb]

theorem Ok.removeEdge {g g' : Graph} {a b : Str} (ho : g.Ok) (h : g.removeEdge a b = .ok g') : g'.Ok := by
  refine ⟨by rw [keys_removeEdge h]; exact ho.nodup, ?_, ?_⟩
  · intro m r hr
    rw [get?_removeEdge h] at hr
    cases h2 : g.get? m with
    | none => simp [h2] at hr
    | some r0 =>
      rw [h2] at hr
      simp only [Option.map_some, Option.some.injEq] at hr
      subst hr
      show (Dict.keys (if m = a then _ else _)).Nodup
      split
      · exact Dict.nodup_del (ho.nbrs m r0 h2) b
      · split
        · exact Dict.nodup_del (ho.nbrs m r0 h2) a
        · exact ho.nbrs m r0 h2
  · intro u v
    rw [adj_removeEdge h, adj_removeEdge h, ho.symm u v]
    have e : ((u = a ∧ v = b) ∨ (u = b ∧ v = a)) ↔ ((v = a ∧ u = b) ∨ (v = b ∧ u = a)) := by tauto
    by_cases hc : (u = a ∧ v = b) ∨ (u = b ∧ v = a)
    · rw [if_pos hc, if_pos (e.1 hc)]
    · rw [if_neg hc, if_neg (fun h => hc (e.2 h))]

end Graph

/-- The full claim: the transitions of an atom form a dictionary to which transitions can be assigned and from which they can
be deleted. -/
def C118_full : Prop := ∀ w, Reachable w →
  (∀ key t, t < w.ntr → (w.tr t).built = true → (transSet key t w).2 = .ok ()) ∧
  (∀ key ∈ w.transKeys, (transDel key w).2 = .ok () ∧ key ∉ (transDel key w).1.transKeys)

/-- Called as a method with the names of two linked levels in either order, deletion removes exactly their transition: the other
transitions, the levels and every object stay; for two levels that are not linked it raises and changes nothing. -/
theorem C118_method_partial {w : World} (hr : Reachable w) (a b : Str) :
    (w.g.adj a b = none → transDelCall a b w = (w, .error .NetworkXError)) ∧
    (w.g.adj a b ≠ none → ∃ w', transDelCall a b w = (w', .ok ()) ∧ w' = { w with g := w'.g } ∧
      (∀ p t, (p, t) ∈ w'.g.edges ↔ (p, t) ∈ w.g.edges ∧ p ≠ (a, b) ∧ p ≠ (b, a)) ∧
      w'.levelNames = w.levelNames ∧ (∀ n, w'.g.lev n = w.g.lev n)) := by
  constructor
  · intro h
    unfold transDelCall
    rw [Graph.removeEdge_err h]
  · intro h
    obtain ⟨g', hg'⟩ : ∃ g', w.g.removeEdge a b = .ok g' := by
      unfold Graph.removeEdge
      rw [if_pos (Option.isSome_iff_ne_none.2 h)]
      exact ⟨_, rfl⟩
    have hok := hr.wf.gok
    have hok' := hok.removeEdge hg'
    refine ⟨{ w with g := g' }, by unfold transDelCall; rw [hg'], rfl, ?_, ?_, Graph.lev_removeEdge hg'⟩
    · rintro ⟨u, v⟩ t
      show ((u, v), t) ∈ g'.edges ↔ _
      rw [Graph.mem_edges hok', Graph.mem_edges hok, Graph.adj_removeEdge hg']
      have hb : g'.Before u v ↔ w.g.Before u v := by unfold Graph.Before; rw [Graph.keys_removeEdge hg']
      rw [hb]
      simp only [ne_eq, Prod.mk.injEq]
      by_cases hc : (u = a ∧ v = b) ∨ (u = b ∧ v = a)
      · rw [if_pos hc]; simp; tauto
      · rw [if_neg hc]; tauto
    · show g'.levelAttrs.keys = w.g.levelAttrs.keys
      rw [Graph.keys_levelAttrs _ hok'.nodup, Graph.keys_levelAttrs _ hok.nodup, Graph.keys_removeEdge hg']
      simp only [Graph.lev_removeEdge hg']

/-- `append` is `add_transition`: the transition is then the one listed between its levels. -/
theorem C118_append (σ : Ord') (t : Nat) (w : World) : (transAppend σ t w).1.g.adj (w.lname (w.tr t).lower) (w.lname (w.tr t).upper) = some t := by
  unfold transAppend
  rw [(addTransition_frame σ t w).g, trAddToAtom_fst]
  show (w.g.addEdge _ _ t).adj _ _ = _
  rw [Graph.adj_addEdge]; simp

/-- `transitions[key] = t` and `del transitions[key]` raise `TypeError` for every key and change nothing. -/
theorem C118_del_raises (w : World) (key : Str × Str) (t : Nat) :
    transSet key t w = (w, .error .TypeError) ∧ transDel key w = (w, .error .TypeError) := ⟨rfl, rfl⟩

/-- Item assignment and item deletion raise `TypeError` always. -/
theorem C118_fails : ¬C118_full := by
  intro h
  have := (h (runAll (threeLevels 0 5 9 ++ [.newTrans 0 1 none .none none]) (emptyAtom 0 0)) (demo_reachable (by decide +kernel))).1
    (demoName 'g', demoName 'a') 0 (by decide +kernel) (by decide +kernel)
  revert this
  decide +kernel

example : let w := runAll (threeLevels 0 5 9 ++ [.newTrans 0 1 none .none none, .newTrans 2 1 none .none none]) (emptyAtom 0 0)
    (transDel (demoName 'g', demoName 'a') w).2 = .error .TypeError ∧
    (transDelCall (demoName 'a') (demoName 'g') w).1.transKeys = [(demoName 'a', demoName 'b')] := by
  decide +kernel

/-! ## C119 -/

/-- What adding levels does. -/
theorem addLevels_spec (ls : List Nat) (w : World) :
    ∃ w', addLevels ls w = (w', .ok ()) ∧ w'.g = ls.foldl (fun g i => g.addNode (w.lname i) i) w.g ∧ w'.I = w.I ∧ w'.B = w.B ∧
      w'.ntr = w.ntr ∧ w'.tr = w.tr ∧ w'.talias = w.talias ∧
      (∀ i, w'.lv i = { w.lv i with inAtom := decide (i ∈ ls) || (w.lv i).inAtom }) ∧
      (∀ al, w'.lalias.get? al = none ↔ w.lalias.get? al = none ∧ ∀ i ∈ ls, (w.lv i).ali ≠ some al) := by
  induction ls generalizing w with
  | nil => exact ⟨w, rfl, rfl, rfl, rfl, rfl, rfl, rfl, fun i => by simp, fun al => by simp⟩
  | cons n ls ih =>
    obtain ⟨w1, h1, hg, hI, hB, hn, ht, hta, hlv, hal⟩ : ∃ w1, addLevel n false none w = (w1, .ok ()) ∧
        w1.g = w.g.addNode (w.lname n) n ∧ w1.I = w.I ∧ w1.B = w.B ∧ w1.ntr = w.ntr ∧ w1.tr = w.tr ∧ w1.talias = w.talias ∧
        (∀ i, w1.lv i = { w.lv i with inAtom := decide (i = n) || (w.lv i).inAtom }) ∧
        (∀ al, w1.lalias.get? al = none ↔ w.lalias.get? al = none ∧ (w.lv n).ali ≠ some al) := by
      have hl : ∀ i, upd w.lv n { w.lv n with inAtom := true } i = { w.lv i with inAtom := decide (i = n) || (w.lv i).inAtom } := by
        intro i
        unfold upd
        by_cases hi : i = n
        · subst hi; simp
        · simp [hi]
      cases ha : (w.lv n).ali with
      | none =>
        refine ⟨{ w with lv := upd w.lv n { w.lv n with inAtom := true }, g := w.g.addNode (w.lname n) n }, ?_, rfl, rfl, rfl, rfl, rfl,
          rfl, hl, fun al => by simp⟩
        show (regAlias n >>= fun _ => pure ()) { w with lv := upd w.lv n { w.lv n with inAtom := true }, g := w.g.addNode (w.lname n) n } = _
        have : regAlias n { w with lv := upd w.lv n { w.lv n with inAtom := true }, g := w.g.addNode (w.lname n) n } =
            ({ w with lv := upd w.lv n { w.lv n with inAtom := true }, g := w.g.addNode (w.lname n) n }, .ok ()) := by
          unfold regAlias
          simp [upd, ha]
        rw [PyM.bind_ok this]; rfl
      | some s =>
        refine ⟨{ w with lv := upd w.lv n { w.lv n with inAtom := true }, g := w.g.addNode (w.lname n) n,
                         lalias := w.lalias.set s (.fine n) }, ?_, rfl, rfl, rfl, rfl, rfl, rfl, hl, fun al => ?_⟩
        · show (regAlias n >>= fun _ => pure ()) { w with lv := upd w.lv n { w.lv n with inAtom := true }, g := w.g.addNode (w.lname n) n } = _
          have : regAlias n { w with lv := upd w.lv n { w.lv n with inAtom := true }, g := w.g.addNode (w.lname n) n } =
              ({ w with lv := upd w.lv n { w.lv n with inAtom := true }, g := w.g.addNode (w.lname n) n,
                        lalias := w.lalias.set s (.fine n) }, .ok ()) := by
            unfold regAlias
            simp [upd, ha]
          rw [PyM.bind_ok this]; rfl
        · show (w.lalias.set s (.fine n)).get? al = none ↔ _
          rw [Dict.get?_set]
          by_cases hs : s = al
          · simp [hs]
          · simp [hs]
    obtain ⟨w2, k1, kg, kI, kB, kn, kt, kta, klv, kal⟩ := ih w1
    have hname : ∀ i, w1.lname i = w.lname i := fun i => by unfold lname; rw [hlv i]
    refine ⟨w2, ?_, ?_, kI.trans hI, kB.trans hB, kn.trans hn, kt.trans ht, kta.trans hta, fun i => ?_, fun al => ?_⟩
    · show (addLevel n false none >>= fun _ => addLevels ls) w = _
      rw [PyM.bind_ok h1]; exact k1
    · rw [kg, hg]; simp only [hname, List.foldl_cons]
    · rw [klv i, hlv i]
      simp only [List.mem_cons]
      congr 1
      by_cases h1 : i = n <;> by_cases h2 : i ∈ ls <;> simp [h1, h2]
    · rw [kal al, hal al, and_assoc]
      refine and_congr_right fun _ => ?_
      simp only [List.forall_mem_cons]
      refine and_congr_right fun _ => ?_
      refine forall_congr' fun i => ?_
      rw [hlv i]

theorem foldl_addNode (f : Nat → Str) (ls : List Nat) (g : Graph) (hg : g.Ok) (hd : (ls.map f).Nodup)
    (hn : ∀ i ∈ ls, f i ∉ g.keys) (hs : ∀ n ∈ g.keys, ∃ i, g.lev n = some i) :
    let g' := ls.foldl (fun g i => g.addNode (f i) i) g
    g'.Ok ∧ g'.keys = g.keys ++ ls.map f ∧ (∀ n ∈ g'.keys, ∃ i, g'.lev n = some i) ∧ (∀ n, n ∉ ls.map f → g'.lev n = g.lev n) ∧
      (∀ i ∈ ls, g'.lev (f i) = some i) ∧ (∀ u v, g'.adj u v = g.adj u v) := by
  induction ls generalizing g with
  | nil => exact ⟨hg, by simp, hs, fun _ _ => rfl, by simp, fun _ _ => rfl⟩
  | cons a ls ih =>
    simp only [List.map_cons, List.nodup_cons] at hd
    have ka : (g.addNode (f a) a).keys = g.keys ++ [f a] := by
      rw [Graph.keys_addNode, if_neg (hn a (by simp))]
    obtain ⟨h1, h2, h3, h4, h5, h6⟩ := ih (g.addNode (f a) a) (hg.addNode _ _) hd.2 (by
      intro i hi
      rw [ka]
      simp only [List.mem_append, List.mem_singleton, not_or]
      refine ⟨hn i (by simp [hi]), fun h => hd.1 ?_⟩
      rw [← h]; exact List.mem_map.2 ⟨i, hi, rfl⟩) (by
      intro n hm
      rw [Graph.lev_addNode]
      by_cases hc : f a = n
      · exact ⟨a, by simp [hc]⟩
      · rw [ka] at hm
        simp only [List.mem_append, List.mem_singleton] at hm
        obtain ⟨i, hi⟩ := hs n (hm.resolve_right (fun h => hc h.symm))
        exact ⟨i, by simp [hc, hi]⟩)
    refine ⟨h1, ?_, h3, ?_, ?_, ?_⟩
    · show (ls.foldl _ (g.addNode (f a) a)).keys = _
      rw [h2, ka]; simp
    · intro n hm
      simp only [List.map_cons, List.mem_cons, not_or] at hm
      show (ls.foldl _ (g.addNode (f a) a)).lev n = _
      rw [h4 n hm.2, Graph.lev_addNode, if_neg (fun h => hm.1 h.symm)]
    · intro i hi
      show (ls.foldl _ (g.addNode (f a) a)).lev (f i) = _
      rcases List.mem_cons.1 hi with rfl | hi
      · rw [h4 _ hd.1, Graph.lev_addNode, if_pos rfl]
      · exact h5 i hi
    · intro u v
      show (ls.foldl _ (g.addNode (f a) a)).adj u v = _
      rw [h6, Graph.adj_addNode]

/-- An atom made from levels with different names has exactly these levels, in this order, with the energies and constants they
had; spin and field are the ones given; and a level is found under its name. -/
theorem C119_levels (w : World) (σ : Ord') (I B : ℚ) (ls : List Nat) (hd : (ls.map w.lname).Nodup) :
    ∃ w', newAtom σ I B ls [] w = (w', .ok ()) ∧ w'.I = I ∧ w'.B = B ∧ w'.levelNames = ls.map w.lname ∧ w'.transKeys = [] ∧
      (∀ i, w'.lv i = { w.lv i with inAtom := decide (i ∈ ls) || (w.lv i).inAtom }) ∧
      (∀ i ∈ ls, '=' ∉ w.lname i → (∀ k ∈ ls, (w.lv k).ali ≠ some (w.lname i)) →
        levelsGet (w.lname i) w' = (w', .ok (.fine i))) := by
  let w0 : World := { w with I := I, B := B, g := [], lalias := [], talias := [] }
  obtain ⟨w1, h1, hg, hI, hB, -, -, -, hlv, hal⟩ := addLevels_spec ls w0
  obtain ⟨k1, k2, k3, k4, k5, k6⟩ := foldl_addNode w.lname ls [] Graph.Ok.empty hd (by simp [Dict.keys]) (by simp [Dict.keys])
  have hg' : w1.g = ls.foldl (fun (g : Graph) i => g.addNode (w.lname i) i) ([] : Graph) := hg
  rw [← hg'] at k1 k2 k3 k4 k5 k6
  refine ⟨w1, ?_, hI, hB, ?_, ?_, hlv, ?_⟩
  · show (blank I B >>= fun _ => addLevels ls >>= fun _ => addTransitions σ []) w = _
    rw [PyM.bind_ok (show blank I B w = (w0, .ok ()) from rfl), PyM.bind_ok h1]; rfl
  · show w1.g.levelAttrs.keys = _
    rw [Graph.keys_levelAttrs _ k1.nodup, List.filter_eq_self.2, k2]
    · rfl
    · intro n hn
      obtain ⟨i, hi⟩ := k3 n hn
      simp [hi]
  · show w1.g.edges.keys = []
    rw [List.eq_nil_iff_forall_not_mem]
    rintro ⟨u, v⟩ hm
    obtain ⟨t, ht⟩ := (Dict.get?_isSome _ _).2 hm
    have := ((Graph.mem_edges k1 u v t).1 (Dict.mem_of_get? ht)).1
    rw [k6] at this
    cases this
  · intro i hi hc ha
    refine levelsGet_plain k1.nodup ⟨(plainKey_iff _).2 ⟨?_, ?_, ?_⟩, ?_⟩ (k5 i hi)
    · exact isIn_false (c := '=') (by simp [Term.mfEq]) hc
    · exact isIn_false (c := '=') (by simp [mJeq]) hc
    · exact isIn_false (c := '=') (by simp [Term.fEq]) hc
    · exact (hal _).2 ⟨rfl, ha⟩

/-- The unordered pair of the names of a transition's levels. -/
def SamePair (w : World) (t t' : Nat) : Prop :=
  (w.lname (w.tr t).lower = w.lname (w.tr t').lower ∧ w.lname (w.tr t).upper = w.lname (w.tr t').upper) ∨
  (w.lname (w.tr t).lower = w.lname (w.tr t').upper ∧ w.lname (w.tr t).upper = w.lname (w.tr t').lower)

/-- What adding transitions does to the graph, whatever is enforced on the way. -/
theorem addTransitions_spec (σ : Ord') (ts : List Nat) (w w' : World) (h : addTransitions σ ts w = (w', .ok ()))
    (hp : ts.Pairwise fun t t' => ¬SamePair w t t') :
    (∀ n, w'.g.lev n = w.g.lev n) ∧ (∀ i, w'.lname i = w.lname i) ∧
      (∀ t ∈ ts, w'.g.adj (w.lname (w.tr t).lower) (w.lname (w.tr t).upper) = some t ∧
        w'.g.adj (w.lname (w.tr t).upper) (w.lname (w.tr t).lower) = some t) ∧
      (∀ u v, (∀ t ∈ ts, ¬((u = w.lname (w.tr t).lower ∧ v = w.lname (w.tr t).upper) ∨
        (u = w.lname (w.tr t).upper ∧ v = w.lname (w.tr t).lower))) → w'.g.adj u v = w.g.adj u v) := by
  induction ts generalizing w with
  | nil =>
    have : w' = w := by injection h with h _; exact h.symm
    subst this
    exact ⟨fun _ => rfl, fun _ => rfl, by simp, fun _ _ _ => rfl⟩
  | cons t ts ih =>
    have hf := addTransition_frame σ t w
    rcases hr : World.addTransition σ t w with ⟨w1, r⟩
    rw [hr, trAddToAtom_fst] at hf
    cases r with
    | error e =>
      have : addTransitions σ (t :: ts) w = (w1, .error e) := by
        show (World.addTransition σ t >>= fun _ => addTransitions σ ts) w = _
        rw [PyM.bind_err hr]
      rw [this] at h; injection h with _ h; cases h
    | ok u =>
      have h2 : addTransitions σ ts w1 = (w', .ok ()) := by
        rw [← h]
        show _ = (World.addTransition σ t >>= fun _ => addTransitions σ ts) w
        rw [PyM.bind_ok hr]
      have hname : ∀ i, w1.lname i = w.lname i := fun i => by unfold lname; rw [hf.term i]
      have hlo : ∀ s, w1.lname (w1.tr s).lower = w.lname (w.tr s).lower := fun s => by rw [(hf.tr s).2.2.1, hname]
      have hup : ∀ s, w1.lname (w1.tr s).upper = w.lname (w.tr s).upper := fun s => by rw [(hf.tr s).2.2.2.1, hname]
      have hg : w1.g = w.g.addEdge (w.lname (w.tr t).lower) (w.lname (w.tr t).upper) t := hf.g
      obtain ⟨hp1, hp2⟩ := List.pairwise_cons.1 hp
      obtain ⟨k1, k2, k3, k4⟩ := ih w1 h2 (hp2.imp fun {a b} hab => by unfold SamePair at hab ⊢; simpa only [hlo, hup] using hab)
      simp only [hlo, hup] at k3 k4
      refine ⟨fun n => by rw [k1, hg, Graph.lev_addEdge], fun i => (k2 i).trans (hname i), ?_, ?_⟩
      · intro s hs
        rcases List.mem_cons.1 hs with rfl | hs
        · constructor
          · rw [k4, hg, Graph.adj_addEdge]
            · simp
            · intro s' hs' hc
              exact hp1 s' hs' hc
          · rw [k4, hg, Graph.adj_addEdge]
            · simp
            · intro s' hs' hc
              exact hp1 s' hs' (hc.symm.imp (fun h => ⟨h.2, h.1⟩) (fun h => ⟨h.2, h.1⟩))
        · exact k3 s hs
      · intro u v huv
        rw [k4 u v (fun s hs => huv s (by simp [hs])), hg, Graph.adj_addEdge, if_neg]
        have := huv t (by simp)
        intro hc
        exact this (hc.imp (fun h => ⟨h.1.symm, h.2.symm⟩) (fun h => ⟨h.2.symm, h.1.symm⟩))

/-- The full claim (atom.py:883-884): transitions given to the constructor bring their levels with them. -/
def C119_full : Prop := ∀ (ops : List Op) (σ : Ord') (I B : ℚ) (ls ts : List Nat) (w' : World), let w := runAll ops (emptyAtom 0 0)
  newAtom σ I B ls ts w = (w', .ok ()) → ∀ t ∈ ts, (w.tr t).built = true →
    w'.g.lev (w.lname (w.tr t).lower) = some (w.tr t).lower ∧ w'.g.lev (w.lname (w.tr t).upper) = some (w.tr t).upper

/-- If the constructor succeeds, the levels of the atom are those listed, whatever the transitions; a transition between two
listed levels is then the one between them in the atom. -/
theorem C119_transitions_partial (w w' : World) (σ : Ord') (I B : ℚ) (ls ts : List Nat) (hd : (ls.map w.lname).Nodup)
    (hp : ts.Pairwise fun t t' => ¬SamePair w t t') (h : newAtom σ I B ls ts w = (w', .ok ())) :
    (∀ i ∈ ls, w'.g.lev (w.lname i) = some i) ∧ (∀ n, n ∉ ls.map w.lname → w'.g.lev n = none) ∧
    (∀ t ∈ ts, w'.g.adj (w.lname (w.tr t).lower) (w.lname (w.tr t).upper) = some t) ∧
    (∀ u v s, w'.g.adj u v = some s → s ∈ ts) := by
  let w0 : World := { w with I := I, B := B, g := [], lalias := [], talias := [] }
  obtain ⟨w1, h1, hg, hI, hB, hn, ht, hta, hlv, hal⟩ := addLevels_spec ls w0
  obtain ⟨k1, k2, k3, k4, k5, k6⟩ := foldl_addNode w.lname ls [] Graph.Ok.empty hd (by simp [Dict.keys]) (by simp [Dict.keys])
  have hg' : w1.g = ls.foldl (fun (g : Graph) i => g.addNode (w.lname i) i) ([] : Graph) := hg
  rw [← hg'] at k1 k2 k3 k4 k5 k6
  have h2 : addTransitions σ ts w1 = (w', .ok ()) := by
    rw [← h]
    show _ = (blank I B >>= fun _ => addLevels ls >>= fun _ => addTransitions σ ts) w
    rw [PyM.bind_ok (show blank I B w = (w0, .ok ()) from rfl), PyM.bind_ok h1]
  have hname : ∀ i, w1.lname i = w.lname i := fun i => by unfold lname; rw [hlv i]
  have htr : w1.tr = w.tr := ht
  obtain ⟨m1, m2, m3, m4⟩ := addTransitions_spec σ ts w1 w' h2 (hp.imp fun {a b} hab => by
    unfold SamePair at hab ⊢; simpa only [hname, htr] using hab)
  simp only [hname, htr] at m3 m4
  refine ⟨fun i hi => by rw [m1]; exact k5 i hi, fun n hn => by rw [m1, k4 n hn]; rfl, fun t ht => (m3 t ht).1, ?_⟩
  intro u v s hs
  by_contra hc
  by_cases hx : ∀ t ∈ ts, ¬((u = w.lname (w.tr t).lower ∧ v = w.lname (w.tr t).upper) ∨
        (u = w.lname (w.tr t).upper ∧ v = w.lname (w.tr t).lower))
  · rw [m4 u v hx, k6] at hs
    cases hs
  · simp only [not_forall, not_not] at hx
    obtain ⟨t, ht, hx⟩ := hx
    have hsym : w'.g.adj u v = some t := by
      rcases hx with ⟨rfl, rfl⟩ | ⟨rfl, rfl⟩
      · exact (m3 t ht).1
      · exact (m3 t ht).2
    rw [hsym] at hs
    cases hs
    exact hc ht

/-- Two level objects and a transition object between them, none of them in the atom. -/
def looseOps : List Op :=
  [.newLevel (demoTerm 'g') 0 0 0 0 0 none, .newLevel (demoTerm 'a') 5 0 0 0 0 none, .newTrans 0 1 none .none none]

/-- A transition given to the constructor without its levels gives an atom with the transition and without the levels. -/
theorem C119_fails : ¬C119_full := by
  intro h
  have := (h looseOps idOrd 0 0 [] [0] (newAtom idOrd 0 0 [] [0] (runAll looseOps (emptyAtom 0 0))).1
    (Prod.ext rfl (by decide +kernel)) 0 (by simp) (by decide +kernel)).1
  revert this
  decide +kernel

/-- The atom made from both levels and the transition, and the one made from the transition alone. -/
example : let w := runAll looseOps (emptyAtom 0 0)
    (newAtom idOrd (1 / 2) 3 [1, 0] [0] w).2 = .ok () ∧ ([1, 0].map w.lname).Nodup ∧
    (newAtom idOrd (1 / 2) 3 [1, 0] [0] w).1.levelNames = [demoName 'a', demoName 'g'] ∧
    (newAtom idOrd (1 / 2) 3 [1, 0] [0] w).1.transKeys = [(demoName 'a', demoName 'g')] ∧
    (newAtom idOrd (1 / 2) 3 [] [0] w).1.levelNames = [] ∧
    (newAtom idOrd (1 / 2) 3 [] [0] w).1.transKeys = [(demoName 'g', demoName 'a')] := by
  decide +kernel

end AtomTk
