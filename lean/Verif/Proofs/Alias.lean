import Verif.Proofs.History

/-! # Calls that leave the level aliases alone -/

namespace AtomTk
namespace World

theorem enfEdge_lalias (u v : Str) (w : World) : (enfEdge u v w).1.lalias = w.lalias := by
  unfold enfEdge
  split
  · rfl
  · split
    · rfl
    · simp only [setFixed, setLv, setE]
      split
      · rfl
      · split <;> rfl

theorem enfEdges_lalias (l : List (Str × Str)) (w : World) : (enfEdges l w).1.lalias = w.lalias := by
  induction l generalizing w with
  | nil => rfl
  | cons p t ih =>
    obtain ⟨u, v⟩ := p
    unfold enfEdges
    exact PyM.bind_rel (fun a b => b.lalias = a.lalias) (fun _ _ _ h1 h2 => h2.trans h1) (enfEdge_lalias u v)
      (fun _ => ih) w

theorem enforce_lalias (σ : Ord') (trig : Option (Str × Str)) (w : World) :
    (enforce σ trig w).1.lalias = w.lalias := by
  unfold enforce
  split
  · rfl
  · refine enfComps_rel (fun a b => b.lalias = a.lalias) (fun _ => rfl) (fun _ _ _ h1 h2 => h2.trans h1) σ _
      (fun c w => ?_) _ _ _
    unfold enfComp
    split
    · rfl
    · rfl
    · exact enfEdges_lalias _ _

theorem setFrequency_lalias (σ : Ord') (t : Nat) (f : ℚ) (w : World) :
    (setFrequency σ t f w).1.lalias = w.lalias := by
  unfold setFrequency
  split
  · simp only
    generalize hb : truthy (w.tr t).setFreq = b
    by_cases hc : b = true ∧ (w.lv (w.tr t).upper).fixed = true ∧ (w.lv (w.tr t).lower).fixed = true
    · simp only [if_pos hc]
      split
      · rw [enforce_lalias]; rfl
      · rfl
    · simp only [if_neg hc]
      split
      · rw [enforce_lalias]; rfl
      · rfl
  · rfl

theorem addTransition_lalias (σ : Ord') (t : Nat) (w : World) : (addTransition σ t w).1.lalias = w.lalias := by
  unfold addTransition
  refine PyM.bind_rel (fun a b => b.lalias = a.lalias) (fun _ _ _ h1 h2 => h2.trans h1)
    (fun w => by rw [trAddToAtom_fst]) (fun _ => ?_) w
  refine PyM.bind_rel (fun a b => b.lalias = a.lalias) (fun _ _ _ h1 h2 => h2.trans h1)
    (fun w => by unfold regTAlias; split <;> rfl) (fun _ w => ?_)
  unfold enforceIfSet
  split
  · split
    · exact enforce_lalias _ _ _
    · rfl
  · rfl

theorem newTrans_lalias (a b : Nat) (f : Option ℚ) (A : AArg) (ali : Option Str) (w : World) :
    (newTrans a b f A ali w).1.lalias = w.lalias := by
  unfold newTrans
  refine PyM.bind_rel (fun a b => b.lalias = a.lalias) (fun _ _ _ h1 h2 => h2.trans h1) (fun w => ?_) (fun t => ?_) w
  · unfold newTransObj
    simp only
    split
    · unfold trAddToAtom
      simp only [upd_same]
      rfl
    · rfl
  · refine PyM.bind_rel (fun a b => b.lalias = a.lalias) (fun _ _ _ h1 h2 => h2.trans h1) (fun w => ?_) (fun _ _ => rfl)
    unfold newTransAttrs
    split
    · rfl
    · split
      · rfl
      · simp only
        split
        · rfl
        · split <;> rfl

end World
end AtomTk
