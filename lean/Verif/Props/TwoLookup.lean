import Verif.Props.TwoAtoms
import Verif.Props.TransKeys

/-!
# Lookups of shared levels: C137
-/

namespace AtomTk
open Util World

open Two

/-- The level of a hyperfine name. -/
theorem baseKey_hyp {w : World} (hg : w.g.keys.Nodup) {n : Str} {i : Nat} {F : ℚ} (hn : '=' ∉ n) (hl : w.g.lev n = some i) (hF : IsHalfInt F)
    (ha : w.lalias.get? (hypText n F) = none) : baseKey w (hypText n F) = some i := by
  obtain ⟨h1, h2, h3⟩ := isIn_hypText (n := n) hn hF
  unfold baseKey
  rw [ha]
  simp only [h1, h2, h3, rsplit_hyp hF, Bool.false_eq_true, if_false, if_true, List.headD_cons]
  rw [Graph.get?_levelAttrs _ hg]
  exact hl

/-- The level of the name of a Zeeman sublevel. -/
theorem baseKey_zee {w : World} (hg : w.g.keys.Nodup) {n : Str} {i : Nat} {F m : ℚ} (hl : w.g.lev n = some i) (hF : IsHalfInt F) (hm : IsHalfInt m)
    (ha : w.lalias.get? (zeeText n F m) = none) : baseKey w (zeeText n F m) = some i := by
  unfold baseKey
  rw [ha]
  simp only [isIn_zeeText, rsplit_zee hF hm, if_true, List.headD_cons]
  rw [Graph.get?_levelAttrs _ hg]
  exact hl

theorem lazyHF_new {w : World} (hI : IsSpin w.I) {i : Nat} {J : ℚ} (hin : (w.lv i).inAtom = true) (hJ : (w.lv i).term.J = some J) (hs : IsSpin J)
    (hF : (w.lv i).term.F = none) (h0 : (w.lv i).subs = []) :
    ∃ w', lazyHF i w = (w', .ok ()) ∧ (w'.lv i).subs.keys = (hfFs w.I J).map fKey := by
  obtain ⟨w1, h1, h2⟩ := popHFs_ok i J (hfFs w.I J) w hJ hF (fun f hf => (hfFs_spin hI hs hf).nonneg)
  refine ⟨w1, ?_, ?_⟩
  · unfold lazyHF populateHF
    simp only [h0, List.length_nil, if_true, hin, hJ]
    exact h1
  · rw [h2, keys_nil h0, addKeys_new _ _ (by simpa using hfKeys_nodup hI hs)]
    simp

/-- C137 for shared levels, in any state of two atoms: the lookup of a hyperfine sublevel by its name, in any atom that has the level, computes
the sublevels for the nuclear spin of the atom the level was added to last, and succeeds exactly for the values of `F` of that spin. -/
theorem C137_lookup {s : Two} {k : Bool} {n : Str} {i : Nat} {F J : ℚ} (hg : (s.site k).g.keys.Nodup) (hn : '=' ∉ n)
    (hl : (s.site k).g.lev n = some i) (hF : IsHalfInt F) (ha : (s.site k).lalias.get? (hypText n F) = none) (h0 : (s.heap.lv i).subs = [])
    (hin : (s.heap.lv i).inAtom = true) (hJ : (s.heap.lv i).term.J = some J) (hJs : IsSpin J) (hFn : (s.heap.lv i).term.F = none)
    {b : Bool} (hb : s.owner i = some b) (hI : IsSpin (s.site b).I) :
    (∀ key, (∃ j, ((run k (.getLevel (hypText n F)) s).1.heap.lv i).subs.get? key = some j) ↔
      ∃ F' : ℚ, key = "F=".toList ++ numToFrac F' ∧ |J - (s.site b).I| ≤ F' ∧ F' ≤ J + (s.site b).I ∧ ∃ z : ℤ, F' - J - (s.site b).I = z) ∧
    ((run k (.getLevel (hypText n F)) s).2 = .ok () ↔
      |J - (s.site b).I| ≤ F ∧ F ≤ J + (s.site b).I ∧ ∃ z : ℤ, F - J - (s.site b).I = z) := by
  have hbase : baseKey (s.view k) (hypText n F) = some i := baseKey_hyp (w := s.view k) hg hn hl hF ha
  have hlw : s.lookupWorld k (hypText n F) = { s.view k with I := (s.site b).I } := by
    unfold lookupWorld
    rw [hbase]
    simp [atomOf, hb]
  set w : World := { s.view k with I := (s.site b).I } with hw
  have hget : levelsGet (hypText n F) w = lvItem i (fKey F) w := levelsGet_hyp (w := w) hg hn hl hF ha
  obtain ⟨w1, e1, e2⟩ := lazyHF_new (w := w) hI hin hJ hJs hFn h0
  have hmul := C13_multiplet (s.site b).I J hI hJs
  have hno : isIn mJtxt (fKey F) = false :=
    isIn_false (c := 'm') (by decide) (fKey_no hF (by decide) (by decide) (by decide) (by decide) (by decide))
  have hkeys : ∀ key, (∃ j, (w1.lv i).subs.get? key = some j) ↔ ∃ F' ∈ hfFs (s.site b).I J, key = fKey F' := by
    intro key
    rw [Dict.get?_isSome, e2, List.mem_map]
    exact ⟨fun ⟨a, h1, h2⟩ => ⟨a, h1, h2.symm⟩, fun ⟨a, h1, h2⟩ => ⟨a, h1, h2.symm⟩⟩
  have hitem : lvItem i (fKey F) w = (w1, (w1.lv i).subs.getE (fKey F) >>= fun j => .ok (.hyp j)) := by
    unfold lvItem
    rw [PyM.bind_ok e1, PyM.bind_ok (show PyM.get w1 = (w1, .ok w1) from rfl), if_neg (by rw [hno]; simp)]
    cases hE : (w1.lv i).subs.getE (fKey F) with
    | ok j => rw [PyM.bind_ok (show PyM.lift (Except.ok j) w1 = (w1, .ok j) from rfl)]; rfl
    | error e => rw [PyM.bind_err (show PyM.lift (Except.error e : Py Nat) w1 = (w1, .error e) from rfl)]; rfl
  have hrun : run k (.getLevel (hypText n F)) s =
      (s.putHeap ((Op.getLevel (hypText n F)).run w).1, ((Op.getLevel (hypText n F)).run w).2) := by
    show (s.putHeap ((Op.getLevel (hypText n F)).run (s.lookupWorld k (hypText n F))).1,
      ((Op.getLevel (hypText n F)).run (s.lookupWorld k (hypText n F))).2) = _
    rw [hlw]
  have hheap : (run k (.getLevel (hypText n F)) s).1.heap = w1 := by
    rw [hrun]
    show ((Op.getLevel (hypText n F)).run w).1 = w1
    rw [show ((Op.getLevel (hypText n F)).run w).1 = (levelsGet (hypText n F) w).1 from Op.void_fst _ _, hget, hitem]
  refine ⟨fun key => ?_, ?_⟩
  · rw [hheap, hkeys]
    constructor
    · rintro ⟨F', h1, h2⟩
      exact ⟨F', h2, (hmul.1 F').1 h1⟩
    · rintro ⟨F', h1, h2⟩
      exact ⟨F', (hmul.1 F').2 h2, h1⟩
  · have hres : (run k (.getLevel (hypText n F)) s).2 = .ok () ↔ ∃ j, (w1.lv i).subs.get? (fKey F) = some j := by
      rw [hrun]
      show (Op.void (levelsGet (hypText n F)) w).2 = .ok () ↔ _
      unfold Op.void
      rw [hget, hitem]
      cases hE : (w1.lv i).subs.getE (fKey F) with
      | ok j => exact ⟨fun _ => ⟨j, Dict.getE_ok.1 hE⟩, fun _ => rfl⟩
      | error e =>
        refine Iff.intro (fun h => by cases h) (fun ⟨j, hj⟩ => ?_)
        rw [Dict.getE_ok.2 hj] at hE
        cases hE
    rw [hres, hkeys]
    constructor
    · rintro ⟨F', h1, h2⟩
      have hF' : IsHalfInt F' := IsSpin.isHalfInt (hfFs_spin hI hJs h1)
      rw [fKey_inj hF hF' h2]
      exact (hmul.1 F').1 h1
    · intro h
      exact ⟨F, (hmul.1 F).2 h, rfl⟩

/-- A level is added to an atom of spin 0 and then to one of spin 1/2. -/
def shareOps : List (Bool × Op) :=
  [(true, .newLevel (demoTerm 'g') 0 2 4 0 0 none), (true, .addLevel 0 false none), (false, .addLevel 0 false none)]

/-- The level of the atom of spin 0 has the sublevel `F=0` of the other spin. -/
example : ((Two.runAll shareOps (Two.empty (1/2) 0 0 0)).run true (.getLevel (hypText (demoName 'g') 0))).2 = .ok () :=
  (C137_lookup (s := Two.runAll shareOps (Two.empty (1/2) 0 0 0)) (k := true) (n := demoName 'g') (i := 0) (F := 0) (J := 1/2) (b := false)
    (by decide +kernel) (by decide +kernel) (by decide +kernel) ⟨0, by norm_num⟩ (by decide +kernel) (by decide +kernel) (by decide +kernel)
    (by decide +kernel) ⟨1, by norm_num⟩ (by decide +kernel) (by decide +kernel)
    (by rw [show ((Two.runAll shareOps (Two.empty (1/2) 0 0 0)).site false).I = 1/2 by decide +kernel]; exact ⟨1, by norm_num⟩)).2.2
    (by rw [show ((Two.runAll shareOps (Two.empty (1/2) 0 0 0)).site false).I = 1/2 by decide +kernel]
        exact ⟨by norm_num, by norm_num, -1, by norm_num⟩)

end AtomTk
