import Verif.Props.Items
import Verif.Proofs.Grotrian

/-!
# C157: all the Zeeman levels of a level

`[z for h in level.values() for z in h.values()]`: how many there are, and where their centre of gravity lies.
-/

namespace AtomTk
open Util World

/-! ## One Landé factor per hyperfine level -/

/-- The Zeeman levels of one hyperfine level have the same factor. -/
def SameG (w : World) : Prop := ∀ j, ∃ g, ∀ k z, (w.hf j).subs.get? k = some z → z < w.nzl ∧ (w.zl z).gF = g

theorem sameG_popZs {w : World} (h : SameG w) {j : Nat} {F : ℚ} (h0 : (w.hf j).subs = []) (hF : (w.hf j).term.F = some F) :
    SameG (popZs j (zMs F) w).1 := by
  intro k
  by_cases hk : k = j
  · subst hk
    let c : ℚ := match (w.hf k).term.J with
      | some J => match compGF (w.lv (w.hf k).parent).lande w.I J F with
        | .ok g => g
        | .error _ => 0
      | none => 0
    refine ⟨c, ?_⟩
    refine (popZs_inv (fun w1 => (∀ n z, (w1.hf k).subs.get? n = some z → z < w1.nzl ∧ (w1.zl z).gF = c) ∧ (w1.hf k).parent = (w.hf k).parent ∧
      (w1.hf k).term = (w.hf k).term ∧ w1.lv = w.lv ∧ w1.I = w.I) k (fun w1 J1 F1 m g' hw1 hJ1 hF1 hg => ?_) _ w ⟨?_, rfl, rfl, rfl, rfl⟩).1
    · obtain ⟨e, p1, p2, p3, p4⟩ := hw1
      have hc : c = g' := by
        rw [p2] at hJ1 hF1
        rw [hF] at hF1
        cases hF1
        rw [p1, p3, p4] at hg
        simp only [c, hJ1, hg]
      simp only [popZ1', upd_same]
      refine ⟨?_, p1, p2, p3, p4⟩
      intro n z hz
      rw [Dict.get?_set] at hz
      split_ifs at hz with hkk
      · cases hz
        rw [upd_same]
        exact ⟨by omega, hc.symm⟩
      · obtain ⟨a1, a2⟩ := e n z hz
        rw [upd_ne _ _ _ (by omega : z ≠ w1.nzl)]
        exact ⟨by omega, a2⟩
    · intro n z hz
      rw [h0] at hz
      exact absurd hz (by simp [Dict.get?])
  · obtain ⟨g, hg⟩ := h k
    refine ⟨g, ?_⟩
    refine popZs_inv (fun w1 => ∀ n z, (w1.hf k).subs.get? n = some z → z < w1.nzl ∧ (w1.zl z).gF = g) j
      (fun w1 _ _ m g' hw1 _ _ _ => ?_) _ w hg
    intro n z hz
    simp only [popZ1'] at hz ⊢
    rw [upd_ne _ _ _ hk] at hz
    obtain ⟨a1, a2⟩ := hw1 n z hz
    rw [upd_ne _ _ _ (by omega : z ≠ w1.nzl)]
    exact ⟨by omega, a2⟩

theorem SameG.step {C : World → Nat → ℚ → Prop} {w w' : World} (h : SameG w) (hs : SStep C w w') : SameG w' := by
  cases hs with
  | frame hf =>
    intro j
    obtain ⟨g, hg⟩ := h j
    refine ⟨g, fun k z hz => ?_⟩
    rw [hf.hf] at hz
    rw [hf.nzl, (hf.zl z).2.2]
    exact hg k z hz
  | consts i l A B D _ => exact h
  | newLevel t E l A B D ali => exact h
  | popHF i J hin hJ =>
    refine popHFs_inv SameG i (fun w1 _ _ f g hp _ _ _ => ?_) _ w h
    intro j
    simp only [popHF1']
    by_cases hj : j = w1.nhf
    · subst hj
      refine ⟨0, fun k z hz => ?_⟩
      rw [upd_same] at hz
      exact absurd hz (by simp [Dict.get?])
    · rw [upd_ne _ _ _ hj]
      exact hp j
  | popZ j F h0 hF => exact sameG_popZs h h0 hF

theorem SameG.steps {C : World → Nat → ℚ → Prop} {w w' : World} (h : SameG w) (hs : SSteps C w w') : SameG w' := by
  induction hs with
  | refl => exact h
  | tail _ hs ih => exact ih.step hs

theorem Reachable.sameG {w : World} (h : Reachable w) : SameG w := by
  obtain ⟨I, B, h⟩ := h.steps
  refine SameG.steps (fun j => ⟨0, fun k z hz => ?_⟩) h
  exact absurd hz (by simp [emptyAtom, Dict.get?])

/-! ## The listing -/

/-- `[z for h in js for z in h.values()]`. -/
def zeemanOf : List Nat → PyM (List Nat)
  | [] => pure []
  | j :: js => do
    let a ← hfSubs j
    let b ← zeemanOf js
    pure (a ++ b)

/-- `[z for h in level.values() for z in h.values()]`. -/
def allZeeman (i : Nat) : PyM (List Nat) := do
  let js ← lvSubs i
  zeemanOf js

/-- The Zeeman levels of one hyperfine level, listed by m. -/
def ZManifold (w : World) (j : Nat) (F : ℚ) (zs : List Nat) : Prop :=
  ∃ g, List.Forall₂ (fun z m => z < w.nzl ∧ (w.zl z).term.mF = some m ∧ (w.zl z).parent = j ∧ (w.zl z).gF = g) zs (zMs F)

theorem ZManifold.mono {w w' : World} (hf : LFrame w w') {j : Nat} {F : ℚ} {zs : List Nat} (h : ZManifold w j F zs) : ZManifold w' j F zs := by
  obtain ⟨g, h⟩ := h
  refine ⟨g, h.imp ?_⟩
  rintro z m ⟨h1, h2, h3, h4⟩
  rw [hf.zl z h1]
  exact ⟨lt_of_lt_of_le h1 hf.nzl, h2, h3, h4⟩

/-- The manifolds of the hyperfine levels one after another. -/
inductive Manifolds (w : World) : List Nat → List ℚ → List Nat → Prop
  | nil : Manifolds w [] [] []
  | cons {j : Nat} {F : ℚ} {js : List Nat} {Fs : List ℚ} {a b : List Nat} : ZManifold w j F a → Manifolds w js Fs b →
      Manifolds w (j :: js) (F :: Fs) (a ++ b)

theorem hfSubs_ok {w : World} {i j : Nat} {J F : ℚ} (h : Draw w i J) (hg : SameG w) (hj : IsHyp w i J j F) :
    ∃ w' zs, hfSubs j w = (w', .ok zs) ∧ Draw w' i J ∧ SameG w' ∧ LFrame w w' ∧ w'.lv = w.lv ∧ ZManifold w' j F zs := by
  have hsF := hfFs_spin h.hI h.hs hj.mem
  obtain ⟨w', e1, e2, -⟩ := lazyZ_ok h.inv.keys hj.J hj.F hsF
  have hfr : LFrame w w' := by
    have := lazyZ_frame j w
    rwa [e1] at this
  have hin : SubInv w' := by
    have := h.inv.steps (lazyZ_steps (C := fun _ _ _ => True) j w)
    rwa [e1] at this
  have hg' : SameG w' := by
    have := hg.steps (lazyZ_steps (C := fun _ _ _ => True) j w)
    rwa [e1] at this
  have hlv : w'.lv = w.lv := by
    have := lazyZ_lv j w
    rwa [e1] at this
  have hj' := hj.frame hfr hlv
  have hz := zee_zip hin hj'.F hsF e2
  obtain ⟨g, hgj⟩ := hg' j
  refine ⟨w', (w'.hf j).subs.vals, ?_, h.frame hin hfr hlv, hg', hfr, hlv, g, hz.imp ?_⟩
  · unfold hfSubs; rw [PyM.bind_ok e1]; rfl
  · intro z m hzm
    exact ⟨hzm.lt, hzm.mF, hzm.par, (hgj _ _ hzm.get).2⟩

theorem zeemanOf_ok {w0 : World} {i : Nat} {J : ℚ} {js : List Nat} {Fs : List ℚ} (hj : List.Forall₂ (fun j F => IsHyp w0 i J j F) js Fs) {w : World}
    (h : Draw w i J) (hg : SameG w) (hf : LFrame w0 w) (hl : w.lv = w0.lv) :
    ∃ w' zs, zeemanOf js w = (w', .ok zs) ∧ Draw w' i J ∧ LFrame w w' ∧ w'.lv = w.lv ∧ Manifolds w' js Fs zs := by
  induction hj generalizing w with
  | nil => exact ⟨w, [], rfl, h, LFrame.refl w, rfl, .nil⟩
  | @cons j F js Fs h1 h2 ih =>
    obtain ⟨w1, a, e1, d1, g1, f1, l1, m1⟩ := hfSubs_ok h hg (h1.frame hf hl)
    obtain ⟨w2, b, e2, d2, f2, l2, m2⟩ := ih d1 g1 (LFrame.trans _ _ _ hf f1) (l1.trans hl)
    refine ⟨w2, a ++ b, ?_, d2, LFrame.trans _ _ _ f1 f2, l2.trans l1, .cons (m1.mono f2) m2⟩
    show (hfSubs j >>= fun a => zeemanOf js >>= fun b => pure (a ++ b)) w = _
    rw [PyM.bind_ok e1, PyM.bind_ok e2]
    rfl

/-! ## Counting, and the sum of the energies -/

theorem forall2_len {α β : Type} {P : α → β → Prop} {l : List α} {m : List β} (h : List.Forall₂ P l m) : l.length = m.length := h.length_eq

theorem Manifolds.length {w : World} {js : List Nat} {Fs : List ℚ} {zs : List Nat} (h : Manifolds w js Fs zs) :
    zs.length = (Fs.map (fun F => (zMs F).length)).sum := by
  induction h with
  | nil => rfl
  | cons h1 _ ih =>
    obtain ⟨g, h1⟩ := h1
    rw [List.length_append, ih, h1.length_eq]
    simp

theorem Manifolds.parent {w : World} {js : List Nat} {Fs : List ℚ} {zs : List Nat} (h : Manifolds w js Fs zs) :
    ∀ z ∈ zs, z < w.nzl ∧ (w.zl z).parent ∈ js := by
  induction h with
  | nil => intro z hz; cases hz
  | @cons j F js Fs a b h1 _ ih =>
    obtain ⟨g, h1⟩ := h1
    intro z hz
    rcases List.mem_append.1 hz with hz | hz
    · have : ∀ {a : List Nat} {ms : List ℚ}, List.Forall₂ (fun z m => z < w.nzl ∧ (w.zl z).term.mF = some m ∧ (w.zl z).parent = j ∧ (w.zl z).gF = g) a ms →
          z ∈ a → z < w.nzl ∧ (w.zl z).parent = j := by
        intro a ms h
        induction h with
        | nil => intro hz; cases hz
        | cons h1 _ ih =>
          intro hz
          rcases List.mem_cons.1 hz with rfl | hz
          · exact ⟨h1.1, h1.2.2.1⟩
          · exact ih hz
      obtain ⟨q1, q2⟩ := this h1 hz
      exact ⟨q1, by rw [q2]; exact List.mem_cons_self⟩
    · exact ⟨(ih z hz).1, List.mem_cons_of_mem _ (ih z hz).2⟩

theorem manifold_nodup {w : World} {j : Nat} {g : ℚ} {zs : List Nat} {ms : List ℚ}
    (h : List.Forall₂ (fun z m => z < w.nzl ∧ (w.zl z).term.mF = some m ∧ (w.zl z).parent = j ∧ (w.zl z).gF = g) zs ms) (hm : ms.Nodup) : zs.Nodup := by
  have e : zs.map (fun z => (w.zl z).term.mF) = ms.map some := by
    clear hm
    induction h with
    | nil => rfl
    | cons h1 _ ih => rw [List.map_cons, List.map_cons, ih, h1.2.1]
  refine List.Nodup.of_map (fun z => (w.zl z).term.mF) ?_
  rw [e]
  exact hm.map (Option.some_injective _)

theorem Manifolds.nodup {w : World} {js : List Nat} {Fs : List ℚ} {zs : List Nat} (h : Manifolds w js Fs zs) (hj : js.Nodup) (hF : ∀ F ∈ Fs, IsSpin F) :
    zs.Nodup := by
  induction h with
  | nil => exact List.nodup_nil
  | @cons j F js Fs a b h1 h2 ih =>
    obtain ⟨g, h1'⟩ := h1
    rw [List.nodup_cons] at hj
    refine List.nodup_append.2 ⟨manifold_nodup h1' (C14_manifold F (hF F List.mem_cons_self)).2.1, ih hj.2 (fun F hF' => hF F (List.mem_cons_of_mem _ hF')), ?_⟩
    intro z hz z' hz' e
    subst e
    have q1 := ((Manifolds.cons ⟨g, h1'⟩ Manifolds.nil : Manifolds w [j] [F] (a ++ [])).parent z (by simpa using hz)).2
    have q2 := (h2.parent z hz').2
    rw [List.mem_singleton] at q1
    rw [q1] at q2
    exact hj.1 q2

theorem sum_ms {F : ℚ} (hF : IsSpin F) : (zMs F).sum = 0 := by
  obtain ⟨n, hn, hn2⟩ := spin_count_m hF
  have := C21_sum 1 0 (1 / muB) F hF
  have hmu : muB ≠ 0 := by norm_num [muB]
  have e : (zMs F).map (fun m => zShift 1 m 0 (1 / muB)) = zMs F := by
    rw [List.map_congr_left (g := id) (fun m _ => by simp [zShift, hmu])]
    simp
  rw [e] at this
  rw [this]; ring

/-- The energies of one manifold. -/
theorem manifold_energies {w : World} {j : Nat} {e g : ℚ} {zs : List Nat} {ms : List ℚ} (he : w.hHz j = .ok e)
    (h : List.Forall₂ (fun z m => z < w.nzl ∧ (w.zl z).term.mF = some m ∧ (w.zl z).parent = j ∧ (w.zl z).gF = g) zs ms) :
    ∃ es, List.Forall₂ (fun z x => w.zHz z = .ok x) zs es ∧
      es.sum = zs.length * e + g * muB * w.B * ms.sum + w.B ^ 2 * (zs.map (fun z => (w.zl z).quad)).sum := by
  induction h with
  | nil => exact ⟨[], .nil, by simp⟩
  | @cons z m zs ms h1 _ ih =>
    obtain ⟨es, e1, e2⟩ := ih
    obtain ⟨-, h2, h3, h4⟩ := h1
    refine ⟨(e + zShift g m (w.zl z).quad w.B) :: es, .cons ?_ e1, ?_⟩
    · unfold zHz zShiftHz
      rw [h3, he, h2, h4]
      rfl
    · rw [List.sum_cons, e2]
      simp only [List.length_cons, Nat.cast_add, Nat.cast_one, List.sum_cons, List.map_cons, zShift]
      ring

theorem Manifolds.energies {w : World} {i : Nat} {J : ℚ} {js : List Nat} {Fs : List ℚ} {zs : List Nat} (h : Manifolds w js Fs zs)
    (hj : List.Forall₂ (fun j F => IsHyp w i J j F) js Fs) (hF : ∀ F ∈ Fs, IsSpin F) :
    ∃ es, List.Forall₂ (fun z x => w.zHz z = .ok x) zs es ∧
      es.sum = (Fs.map (fun F => (2 * F + 1) * w.hypE i J F)).sum + w.B ^ 2 * (zs.map (fun z => (w.zl z).quad)).sum := by
  induction h with
  | nil => exact ⟨[], .nil, by simp⟩
  | @cons j F js Fs a b h1 h2 ih =>
    cases hj with
    | cons hj1 hj2 =>
      obtain ⟨es, e1, e2⟩ := ih hj2 (fun F hF' => hF F (List.mem_cons_of_mem _ hF'))
      obtain ⟨g, h1'⟩ := h1
      obtain ⟨ds, d1, d2⟩ := manifold_energies hj1.energy h1'
      have hs := hF F List.mem_cons_self
      refine ⟨ds ++ es, List.rel_append d1 e1, ?_⟩
      rw [List.sum_append, d2, e2, sum_ms hs, h1'.length_eq, (C14_manifold F hs).2.2.1, List.map_append, List.sum_append, List.map_cons, List.sum_cons]
      ring

/-- C157: a level with total angular momentum J of an atom with nuclear spin I has (2I+1)(2J+1) Zeeman levels, all different objects, and the sum of
their energies is (2I+1)(2J+1) times the energy of the level and the square of the field times the sum of the quadratic coefficients: neither the
hyperfine constants nor the linear Zeeman effect move the centre of gravity.  Listing them changes neither the level's energy nor the field. -/
theorem C157_whole {w : World} (hr : Reachable w) (hI : IsSpin w.I) {i : Nat} {J : ℚ} (hf : Findable w i J) :
    ∃ w' zs es, allZeeman i w = (w', .ok zs) ∧ w'.eHz i = w.eHz i ∧ w'.B = w.B ∧ zs.Nodup ∧
      (zs.length : ℚ) = (2 * w.I + 1) * (2 * J + 1) ∧ (∀ z ∈ zs, z < w'.nzl ∧ w'.owner (.zee z) = i) ∧
      List.Forall₂ (fun z x => w'.zHz z = .ok x) zs es ∧
      es.sum = (2 * w.I + 1) * (2 * J + 1) * w.eHz i + w.B ^ 2 * (zs.map (fun z => (w'.zl z).quad)).sum := by
  have hv := hr.subInv
  obtain ⟨w1, e1, ek, -⟩ := lazyHF_ok hv.keys hI (hr.wf.node _ _ hf.reg).2.1 hf.hJ hf.spin hf.hF
  have hfr : LFrame w w1 := by
    have := lazyHF_frame i w
    rwa [e1] at this
  have hin1 : SubInv w1 := by
    have := hv.steps (lazyHF_steps (C := fun _ _ _ => True) i w)
    rwa [e1] at this
  have hg1 : SameG w1 := by
    have := hr.sameG.steps (lazyHF_steps (C := fun _ _ _ => True) i w)
    rwa [e1] at this
  have hD : Draw w1 i J := ⟨hin1, by rw [hfr.I]; exact hI, by rw [hfr.inAtom]; exact (hr.wf.node _ _ hf.reg).2.1, by rw [hfr.term]; exact hf.hJ, hf.spin,
    by rw [hfr.term]; exact hf.hF, by rw [hfr.I]; exact ek⟩
  have hz := hyp_zip hD
  rw [hfr.I] at hz
  obtain ⟨w2, zs, g1, g2, g3, g4, g5⟩ := zeemanOf_ok hz hD hg1 (LFrame.refl w1) rfl
  have hz2 : List.Forall₂ (fun j F => IsHyp w2 i J j F) (w1.lv i).subs.vals (hfFs w.I J) := hz.imp (fun j F h => h.frame g3 g4)
  have hFs : ∀ F ∈ hfFs w.I J, IsSpin F := fun F hF => hfFs_spin hI hf.spin hF
  obtain ⟨es, k1, k2⟩ := g5.energies hz2 hFs
  have hE : w2.eHz i = w.eHz i := by
    unfold eHz
    rw [g4]
    obtain ⟨s, hs⟩ := hfr.lv i
    rw [hs]
  have hI2 : w2.I = w.I := g3.I.trans hfr.I
  have hB2 : w2.B = w.B := g3.B.trans hfr.B
  refine ⟨w2, zs, es, ?_, hE, hB2, ?_, ?_, ?_, k1, ?_⟩
  · unfold allZeeman
    have : lvSubs i w = (w1, .ok (w1.lv i).subs.vals) := by unfold lvSubs; rw [PyM.bind_ok e1]; rfl
    rw [PyM.bind_ok this]
    exact g1
  · refine g5.nodup ?_ hFs
    have e : (w1.lv i).subs.vals.map (fun j => (w1.hf j).term.F) = (hfFs w.I J).map some := by
      generalize (w1.lv i).subs.vals = js at hz
      generalize hfFs w.I J = Fs at hz
      induction hz with
      | nil => rfl
      | cons h1 _ ih => rw [List.map_cons, List.map_cons, ih, h1.F]
    refine List.Nodup.of_map (fun j => (w1.hf j).term.F) ?_
    rw [e]
    exact (C13_multiplet w.I J hI hf.spin).2.1.map (Option.some_injective _)
  · rw [g5.length]
    exact C14_total w.I J hI hf.spin
  · intro z hz'
    obtain ⟨q1, q2⟩ := g5.parent z hz'
    refine ⟨q1, ?_⟩
    obtain ⟨F, q3⟩ := (hyp_vals hin1 hD.hI hD.hJ hf.spin hD.hF _).1 q2
    exact (q3.frame g3 g4).par
  · rw [k2, hB2]
    have hc := C19_centroid (w2.lv i).hfA (w2.lv i).hfB (w2.lv i).hfC w.I J (w.eHz i) hI hf.spin
      (fun F => (w2.lv i).hfA * iDotJ w.I J F + (w2.lv i).hfB * e2 w.I J F + (w2.lv i).hfC * m3 w.I J F) (fun F _ => hfShift_ok ..)
    have : (hfFs w.I J).map (fun F => (2 * F + 1) * w2.hypE i J F) = (hfFs w.I J).map (fun F => w.eHz i * (2 * F + 1) + (2 * F + 1) *
        ((w2.lv i).hfA * iDotJ w.I J F + (w2.lv i).hfB * e2 w.I J F + (w2.lv i).hfC * m3 w.I J F)) := by
      refine List.map_congr_left (fun F _ => ?_)
      unfold hypE
      rw [hE, hI2]
      ring
    rw [this, sum_map_lin, hc.1, sum_degeneracy hI hf.spin]
    ring

/-- C157 without quadratic coefficients: the mean of the energies of all the Zeeman levels is the energy of the level, in every field. -/
theorem C157_mean {w : World} (hr : Reachable w) (hI : IsSpin w.I) {i : Nat} {J : ℚ} (hf : Findable w i J) :
    ∃ w' zs es, allZeeman i w = (w', .ok zs) ∧ List.Forall₂ (fun z x => w'.zHz z = .ok x) zs es ∧
      ((∀ z ∈ zs, (w'.zl z).quad = 0) → es.sum / es.length = w.eHz i) := by
  obtain ⟨w', zs, es, h1, -, -, -, h2, -, h3, h4⟩ := C157_whole hr hI hf
  refine ⟨w', zs, es, h1, h3, fun h0 => ?_⟩
  have e : zs.map (fun z => (w'.zl z).quad) = zs.map (fun _ => (0 : ℚ)) := List.map_congr_left h0
  have hp : (0 : ℚ) < (2 * w.I + 1) * (2 * J + 1) := by
    have h1 := hI.nonneg
    have h2 := hf.spin.nonneg
    positivity
  rw [← h3.length_eq, h2, h4, e]
  simp only [List.map_const', List.sum_replicate, smul_zero, mul_zero, add_zero]
  exact mul_div_cancel_left₀ _ hp.ne'

/-- A level at 5 with J = 1/2, A = 8 and g = 2 in an atom of spin 1/2 and field 3, one Zeeman level with a quadratic coefficient 7: four levels, whose
energies add up to 4 * 5 + 9 * 7, though none lies at 5. -/
def wholeOps : List Op := threeLevels 0 5 9 ++ [.setConsts 1 2 8 0 0, .setB 3, .getSub (.fine 1) "F=1".toList, .getSub (.hyp 1) "mF=0".toList, .setQuad 1 7]

example : let w := runAll wholeOps (emptyAtom (1/2) 0)
    Reachable w ∧ IsSpin w.I ∧ Findable w 1 (1/2) ∧ (allZeeman 1 w).2 = .ok [3, 0, 1, 2] ∧
      (allZeeman 1 w).1.zHz 3 = .ok (-1) ∧ (allZeeman 1 w).1.zHz 1 = .ok (7 + 63) ∧ (allZeeman 1 w).1.zHz 2 = .ok (7 + 3 * muB) := by
  refine ⟨(Reachable.empty _ _).runAll (by decide +kernel), ⟨1, by decide +kernel⟩,
    ⟨by decide +kernel, by decide +kernel, by decide +kernel, ⟨1, by decide +kernel⟩, by decide +kernel, by decide +kernel⟩,
    by decide +kernel, by decide +kernel, by decide +kernel, by decide +kernel⟩

end AtomTk
