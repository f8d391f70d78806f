import Verif.Model.Placed
import Verif.Props.Items
import Verif.Props.Transitions
import Verif.Model.TransKeys

/-! # C141: a level made with `parent=atom` -/

namespace AtomTk
open Util World

/-- The state after `EnergyLevel(..., parent=atom)`. -/
def World.placed (w : World) (t : Term) (E lande A B C : ℚ) (ali : Option Str) : World := (newLevelIn t E lande A B C ali w).1

/-- The full claim: the level is in the atom it was made with, so that it is found there under its name. -/
def C141_full : Prop := ∀ (w : World) t E lande A B C ali, Reachable w → plainKey t.name = true → w.lalias.get? t.name = none →
  w.g.lev t.name = none →
  (levelsGet t.name (w.placed t E lande A B C ali)).2 = .ok (.fine w.nlv)

theorem levelAttrs_none {g : Graph} (hok : g.Ok) {n : Str} (h : g.lev n = none) : g.levelAttrs.get? n = none := by
  rw [Graph.get?_levelAttrs g hok.nodup n]; exact h

/-- It is never found: the name is unknown to the atom, whatever the level. -/
theorem C141_missing {w : World} (hr : Reachable w) (t : Term) (E lande A B C : ℚ) (ali : Option Str) (hp : plainKey t.name = true)
    (ha : w.lalias.get? t.name = none) (hn : w.g.lev t.name = none) :
    levelsGet t.name (w.placed t E lande A B C ali) = (w.placed t E lande A B C ali, .error .KeyError) ∧
    (w.placed t E lande A B C ali).g = w.g ∧ ((w.placed t E lande A B C ali).lv w.nlv).inAtom = true := by
  refine ⟨?_, rfl, by simp [placed, newLevelIn, upd]⟩
  rw [levelsGet_plainKey hp]
  rw [show (w.placed t E lande A B C ali).lalias = w.lalias from rfl, show (w.placed t E lande A B C ali).g = w.g from rfl, ha]
  simp only
  rw [levelAttrs_none hr.wf.gok hn]

/-- Adding it afterwards gives the same atom as adding a level made without an atom. -/
theorem C141_add_partial (t : Term) (E lande A B C : ℚ) (ali : Option Str) (p : Bool) (al : Option Str) (w : World) :
    (do let i ← newLevelIn t E lande A B C ali; addLevel i p al : PyM Unit) w =
      (do let i ← World.newLevel t E lande A B C ali; addLevel i p al : PyM Unit) w := by
  rw [PyM.bind_ok (show newLevelIn t E lande A B C ali w = (w.placed t E lande A B C ali, .ok w.nlv) from rfl),
    PyM.bind_ok (show World.newLevel t E lande A B C ali w = ((World.newLevel t E lande A B C ali w).1, .ok w.nlv) from rfl)]
  have key : lvAddToAtom w.nlv (w.placed t E lande A B C ali) = lvAddToAtom w.nlv (World.newLevel t E lande A B C ali w).1 := by
    simp only [lvAddToAtom, PyM.modify, placed, newLevelIn, World.newLevel, lname, upd, if_true, Prod.mk.injEq, and_true]
    congr 1
    funext j
    by_cases hj : j = w.nlv <;> simp [upd, hj]
  unfold addLevel
  rw [PyM.bind_def, PyM.bind_def, key]

/-- Its sublevels are those of a level of the atom. -/
theorem C141_sublevels {w : World} (hr : Reachable w) (hI : IsSpin w.I) (t : Term) (E lande A B C : ℚ) (ali : Option Str) {J : ℚ}
    (hJ : t.J = some J) (hs : IsSpin J) (hF : t.F = none) :
    ∃ w' ks Fs, lvKeys w.nlv (w.placed t E lande A B C ali) = (w', .ok ks) ∧ Steps |J - w.I| Fs ∧
      ks = Fs.map (fun F => "F=".toList ++ numToFrac F) ∧ (ks.length : ℚ) = 2 * min w.I J + 1 := by
  have hlv : (w.placed t E lande A B C ali).lv w.nlv = ⟨t, E, lande, A, B, C, ali, true, false, []⟩ := by
    simp [placed, newLevelIn, upd]
  have hk : KeysInv (w.placed t E lande A B C ali) := by
    refine ⟨fun hI' i J' h1 h2 h3 => ?_, hr.keysInv.z⟩
    by_cases hi : i = w.nlv
    · subst hi; rw [hlv]; exact .inl rfl
    · have e : (w.placed t E lande A B C ali).lv i = w.lv i := by simp [placed, newLevelIn, upd, hi]
      rw [e] at h1 h3 ⊢
      exact hr.keysInv.hf hI' i J' h1 h2 h3
  obtain ⟨w1, h1, h2, -⟩ := lazyHF_ok hk hI (i := w.nlv) (J := J) (by rw [hlv]) (by rw [hlv]; exact hJ) hs (by rw [hlv]; exact hF)
  refine ⟨w1, _, hfFs w.I J, ?_, steps_arange _ _, h2, ?_⟩
  · unfold lvKeys
    rw [PyM.bind_ok h1]; rfl
  · rw [h2, List.length_map]; exact (C13_multiplet w.I J hI hs).2.2.1

/-- A transition made between two such levels is listed by the atom although neither level is, and cannot be looked up. -/
theorem C141_ghost {w : World} (hok : w.g.Ok) (a b : Nat) (f : Option ℚ) (A : AArg) (hA : ∀ e, A ≠ .bad e) {J0 J1 : ℚ}
    (hin : (w.lv a).inAtom = true) (hJ0 : (w.lv a).term.J = some J0) (hJ1 : (w.lv b).term.J = some J1)
    (hpa : plainKey (w.lname a) = true) (haa : w.lalias.get? (w.lname a) = none) (hna : w.g.lev (w.lname a) = none) :
    ∃ w' t, World.newTrans a b f A none w = (w', .ok t) ∧ t ∈ w'.transVals ∧ (∀ n, w'.g.lev n = w.g.lev n) ∧
      transGet (w.lname a) (w.lname b) w' = (w', .error .KeyError) := by
  refine ⟨_, _, newTrans_ok w a b f A none J0 J1 hin hJ0 hJ1 hA, ?_, fun n => Graph.lev_addEdge _ _ _ _ _, ?_⟩
  · set u := w.lname (if w.eHz b > w.eHz a then a else b)
    set v := w.lname (if w.eHz b > w.eHz a then b else a)
    have hadj : (w.g.addEdge u v w.ntr).adj u v = some w.ntr := by rw [Graph.adj_addEdge]; simp
    have hadj' : (w.g.addEdge u v w.ntr).adj v u = some w.ntr := by rw [Graph.adj_addEdge]; simp
    show w.ntr ∈ (w.g.addEdge u v w.ntr).edges.vals
    rcases Graph.before_total (w.g.addEdge u v w.ntr) u v with hb | hb
    · exact List.mem_map.2 ⟨_, (Graph.mem_edges (hok.addEdge _ _ _) _ _ _).2 ⟨hadj, hb⟩, rfl⟩
    · exact List.mem_map.2 ⟨_, (Graph.mem_edges (hok.addEdge _ _ _) _ _ _).2 ⟨hadj', hb⟩, rfl⟩
  · unfold transGet
    refine PyM.bind_err ?_
    rw [levelsGet_plainKey hpa]
    simp only [haa]
    rw [levelAttrs_none (hok.addEdge _ _ _) (by rw [Graph.lev_addEdge]; exact hna)]

/-- Not even one of the levels need be known. -/
example : let w := ((emptyAtom 0 0).placed (demoTerm 'g') 0 0 0 0 0 none).placed (demoTerm 'e') 5 0 0 0 0 none
    (World.newTrans 0 1 (some 7) .none none w).1.transKeys = [(demoName 'g', demoName 'e')] ∧
    (World.newTrans 0 1 (some 7) .none none w).1.levelNames = [] ∧
    plainKey (w.lname 0) = true ∧ w.lalias.get? (w.lname 0) = none ∧ w.g.lev (w.lname 0) = none ∧
    (transGet (demoName 'g') (demoName 'e') (World.newTrans 0 1 (some 7) .none none w).1).2 = .error .KeyError := by
  decide +kernel

/-- A level made with its atom, spin 1/2, J = 1/2: its sublevels can be listed, the atom does not have it. -/
example : let w := (emptyAtom (1 / 2) 0).placed (demoTerm 'g') 0 2 4 0 0 none
    (lvKeys 0 w).2 = .ok ["F=0".toList, "F=1".toList] ∧ w.levelNames = [] ∧
    (levelsGet (demoName 'g') w).2 = .error .KeyError ∧
    (levelsGet (demoName 'g') (addLevel 0 false none w).1).2 = .ok (.fine 0) := by
  decide +kernel

/-- The claim is false. -/
theorem C141_fails : ¬C141_full := by
  intro h
  have h1 := h (emptyAtom 0 0) (demoTerm 'g') 0 0 0 0 0 none (.empty 0 0) (by decide +kernel) (by decide +kernel) (by decide +kernel)
  have h2 := (C141_missing (.empty 0 0) (demoTerm 'g') 0 0 0 0 0 none (by decide +kernel) (by decide +kernel) (by decide +kernel)).1
  rw [h2] at h1
  simp at h1

end AtomTk
