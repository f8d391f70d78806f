import Verif.Model.TransKeys
import Verif.Proofs.Keep

/-! # Calls that leave the transition aliases alone -/

namespace AtomTk
namespace World

theorem enfEdge_talias (u v : Str) (w : World) : (enfEdge u v w).1.talias = w.talias := by
  unfold enfEdge
  split
  · rfl
  · split
    · rfl
    · simp only [setFixed, setLv, setE]
      split
      · rfl
      · split <;> rfl

theorem enfEdges_talias (l : List (Str × Str)) (w : World) : (enfEdges l w).1.talias = w.talias := by
  induction l generalizing w with
  | nil => rfl
  | cons p t ih =>
    obtain ⟨u, v⟩ := p
    unfold enfEdges
    exact PyM.bind_rel (fun a b => b.talias = a.talias) (fun _ _ _ h1 h2 => h2.trans h1) (enfEdge_talias u v)
      (fun _ => ih) w

theorem enforce_talias (σ : Ord') (trig : Option (Str × Str)) (w : World) :
    (enforce σ trig w).1.talias = w.talias := by
  unfold enforce
  split
  · rfl
  · refine enfComps_rel (fun a b => b.talias = a.talias) (fun _ => rfl) (fun _ _ _ h1 h2 => h2.trans h1) σ _
      (fun c w => ?_) _ _ _
    unfold enfComp
    split
    · rfl
    · rfl
    · exact enfEdges_talias _ _

theorem setFrequency_talias (σ : Ord') (t : Nat) (f : ℚ) (w : World) :
    (setFrequency σ t f w).1.talias = w.talias := by
  unfold setFrequency
  split
  · simp only
    generalize hb : truthy (w.tr t).setFreq = b
    by_cases hc : b = true ∧ (w.lv (w.tr t).upper).fixed = true ∧ (w.lv (w.tr t).lower).fixed = true
    · simp only [if_pos hc]
      split
      · rw [enforce_talias]; rfl
      · rfl
    · simp only [if_neg hc]
      split
      · rw [enforce_talias]; rfl
      · rfl
  · rfl

theorem enforceIfSet_talias (σ : Ord') (t : Nat) (w : World) : (enforceIfSet σ t w).1.talias = w.talias := by
  unfold enforceIfSet
  split
  · split
    · exact enforce_talias _ _ _
    · rfl
  · rfl

/-- `add_transition` stores the alias of the transition and nothing else. -/
theorem addTransition_talias (σ : Ord') (t : Nat) (w : World) :
    (addTransition σ t w).1.talias = match (w.tr t).subKeys, (w.tr t).ali with
      | [], some s => w.talias.set s t
      | _, _ => w.talias := by
  unfold addTransition
  cases hk : (w.tr t).subKeys with
  | cons k ks =>
    have : trAddToAtom t w = ({ w with g := w.g.addEdge (w.lname (w.tr t).lower) (w.lname (w.tr t).upper) t }, .error .AttributeError) := by
      unfold trAddToAtom
      simp [hk]
    rw [PyM.bind_err this]
  | nil =>
    have h1 : trAddToAtom t w = ({ w with g := w.g.addEdge (w.lname (w.tr t).lower) (w.lname (w.tr t).upper) t }, .ok ()) := by
      unfold trAddToAtom
      simp [hk]
    rw [PyM.bind_ok h1]
    cases ha : (w.tr t).ali with
    | none =>
      have h2 : ∀ g, regTAlias t { w with g := g } = ({ w with g := g }, .ok ()) := by
        intro g; unfold regTAlias; simp [ha]
      rw [PyM.bind_ok (h2 _), enforceIfSet_talias]
    | some s =>
      have h2 : ∀ g, regTAlias t { w with g := g } = ({ w with g := g, talias := w.talias.set s t }, .ok ()) := by
        intro g; unfold regTAlias; simp [ha]
      rw [PyM.bind_ok (h2 _), enforceIfSet_talias]

/-- The constructor stores the alias given, if it stores anything. -/
theorem newTrans_talias (a b : Nat) (f : Option ℚ) (A : AArg) (ali : Option Str) (w : World) :
    ((newTrans a b f A ali w).1.talias = w.talias ∨ ∃ s, ali = some s ∧ (newTrans a b f A ali w).1.talias = w.talias.set s w.ntr) ∧
    (∀ t s, (newTrans a b f A ali w).2 = .ok t → ali = some s → t = w.ntr ∧ (newTrans a b f A ali w).1.talias = w.talias.set s w.ntr) := by
  obtain ⟨g, hg⟩ := newTransObj_def a b ali w
  unfold newTrans
  rw [PyM.bind_ok hg]
  have hal : (({ newTransHeap w a b ali with g := g } : World).tr w.ntr).ali = ali := by
    simp [newTransHeap, upd]
  have hta : ({ newTransHeap w a b ali with g := g } : World).talias = w.talias := rfl
  generalize ({ newTransHeap w a b ali with g := g } : World) = w1 at hal hta
  have key : (∃ e w2, newTransAttrs w.ntr f A w1 = (w2, .error e) ∧ w2.talias = w.talias) ∨
      (∃ w2, newTransAttrs w.ntr f A w1 = (w2, .ok ()) ∧ w2.talias = match ali with
        | none => w.talias
        | some s => w.talias.set s w.ntr) := by
    unfold newTransAttrs
    split
    · exact .inl ⟨_, _, rfl, hta⟩
    · split
      · exact .inl ⟨_, _, rfl, hta⟩
      · simp only [setTr, upd_same, hal]
        cases ali with
        | none => exact .inr ⟨_, rfl, hta⟩
        | some s =>
          simp only
          split
          · exact .inr ⟨_, rfl, by simp [hta]⟩
          · exact .inl ⟨_, _, rfl, hta⟩
  rcases key with ⟨e, w2, h1, h2⟩ | ⟨w2, h1, h2⟩
  · rw [PyM.bind_err h1]
    exact ⟨.inl h2, fun t s h => by cases h⟩
  · rw [PyM.bind_ok h1]
    show (w2.talias = _ ∨ _) ∧ _
    cases ali with
    | none => exact ⟨.inl h2, fun t s _ h => by cases h⟩
    | some s0 =>
      refine ⟨.inr ⟨s0, rfl, h2⟩, fun t s h e => ?_⟩
      cases e
      have : t = w.ntr := by cases h; rfl
      exact ⟨this, h2⟩

end World
end AtomTk
