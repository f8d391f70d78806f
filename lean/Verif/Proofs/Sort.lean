import Verif.Model.Py
import Mathlib.Data.List.Sort

/-! # Lemmas on the stable insertion sort modelling Python's `sorted` -/

namespace AtomTk
variable {α : Type _}

theorem insSorted_perm (le : α → α → Bool) (x : α) (l : List α) : (insSorted le x l).Perm (x :: l) := by
  induction l with
  | nil => exact List.Perm.refl _
  | cons y ys ih =>
    simp only [insSorted]
    split
    · exact List.Perm.refl _
    · exact (List.Perm.cons y ih).trans (List.Perm.swap x y ys)

theorem pySorted_perm (le : α → α → Bool) (l : List α) : (pySorted le l).Perm l := by
  induction l with
  | nil => exact List.Perm.refl _
  | cons x xs ih => exact (insSorted_perm le x _).trans (List.Perm.cons x ih)

theorem insSorted_pairwise (le : α → α → Bool) (htot : ∀ a b, le a b = true ∨ le b a = true)
    (htr : ∀ a b c, le a b = true → le b c = true → le a c = true) (x : α) (l : List α)
    (h : l.Pairwise (fun a b => le a b = true)) : (insSorted le x l).Pairwise (fun a b => le a b = true) := by
  induction l with
  | nil => simp [insSorted]
  | cons y ys ih =>
    simp only [insSorted]
    rw [List.pairwise_cons] at h
    split
    · rename_i hxy
      rw [List.pairwise_cons]
      refine ⟨?_, List.pairwise_cons.2 h⟩
      intro z hz
      simp at hz
      rcases hz with rfl | hz
      · exact hxy
      · exact htr _ _ _ hxy (h.1 z hz)
    · rename_i hxy
      rw [List.pairwise_cons]
      refine ⟨?_, ih h.2⟩
      intro z hz
      rw [(insSorted_perm le x ys).mem_iff] at hz
      simp at hz
      rcases hz with rfl | hz
      · rcases htot z y with h' | h'
        · exact absurd h' hxy
        · exact h'
      · exact h.1 z hz

theorem pySorted_pairwise (le : α → α → Bool) (htot : ∀ a b, le a b = true ∨ le b a = true)
    (htr : ∀ a b c, le a b = true → le b c = true → le a c = true) (l : List α) :
    (pySorted le l).Pairwise (fun a b => le a b = true) := by
  induction l with
  | nil => simp [pySorted]
  | cons x xs ih => exact insSorted_pairwise le htot htr x _ ih

/-- Elements selected by a predicate whose members are mutually equivalent keep their order (stability). -/
theorem insSorted_filter (le : α → α → Bool) (p : α → Bool) (hp : ∀ a b, p a = true → p b = true → le a b = true)
    (x : α) (l : List α) : (insSorted le x l).filter p = (x :: l).filter p := by
  induction l with
  | nil => rfl
  | cons y ys ih =>
    simp only [insSorted]
    split
    · rfl
    · rename_i hxy
      rw [List.filter_cons, ih]
      by_cases hx : p x = true
      · by_cases hy : p y = true
        · exact absurd (hp x y hx hy) hxy
        · simp [hx, hy]
      · by_cases hy : p y = true <;> simp [hx, hy]

theorem pySorted_filter (le : α → α → Bool) (p : α → Bool) (hp : ∀ a b, p a = true → p b = true → le a b = true)
    (l : List α) : (pySorted le l).filter p = l.filter p := by
  induction l with
  | nil => rfl
  | cons x xs ih => rw [pySorted, insSorted_filter le p hp, List.filter_cons, List.filter_cons, ih]

theorem pySorted_of_pairwise (le : α → α → Bool) (l : List α) (h : l.Pairwise (fun a b => le a b = true)) :
    pySorted le l = l := by
  induction l with
  | nil => rfl
  | cons x xs ih =>
    rw [List.pairwise_cons] at h
    rw [pySorted, ih h.2]
    cases xs with
    | nil => rfl
    | cons y ys => simp [insSorted, h.1 y (by simp)]

end AtomTk
