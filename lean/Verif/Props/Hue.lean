import Verif.Model.Hue
import Verif.Props.Render
import Mathlib.Combinatorics.Pigeonhole

/-!
# Colours of spectra: C140
-/

namespace AtomTk

/-- The full claim: the table gives every item a colour; two items have the same colour of the map exactly if they agree in the property
shown by colours, and the same colour and lightness exactly if they agree in both properties. -/
def C140_full : Prop := ∀ (α : Type) (items : List α) (color shade : α → ℚ),
  ∃ tab, colourTable items color shade = .ok tab ∧ tab.map (·.1) = items ∧
    ∀ p ∈ tab, ∀ q ∈ tab, (p.2.1 = q.2.1 ↔ color p.1 = color q.1) ∧
      (p.2 = q.2 ↔ color p.1 = color q.1 ∧ shade p.1 = shade q.1)

/-- The place of an item in the map. -/
noncomputable def huePlace (props : List ℚ) (c : ℚ) : ℕ := min ((npUnique props).idxOf c) 9

theorem mem_npUnique {l : List ℚ} {c : ℚ} : c ∈ npUnique l ↔ c ∈ l := by
  unfold npUnique
  rw [Finset.mem_sort, List.mem_toFinset]

theorem colourBy_eq {α : Type} {items : List α} {color shade : α → ℚ} {t : α} (ht : t ∈ items) :
    ∃ m, colourBy items color shade t = .ok (huePlace (items.map color) (color t),
        1/5 + 3/5 * (shade t - m + 1) / (((items.map color).count (color t) : ℕ) + 1)) ∧
      (∃ u ∈ items, color u = color t ∧ shade u = m) ∧ ∀ u ∈ items, color u = color t → m ≤ shade u := by
  obtain ⟨m, e, h2, h3⟩ := shade_least items color shade ht
  refine ⟨m, ?_, h2, h3⟩
  unfold colourBy hueIndex
  rw [if_pos (mem_npUnique.2 (List.mem_map.2 ⟨t, ht, rfl⟩)), e]
  rfl

/-- The least shade of a colour is one number. -/
theorem least_unique {α : Type} {items : List α} {color shade : α → ℚ} {c m m' : ℚ}
    (h1 : ∃ u ∈ items, color u = c ∧ shade u = m) (h2 : ∀ u ∈ items, color u = c → m ≤ shade u)
    (h1' : ∃ u ∈ items, color u = c ∧ shade u = m') (h2' : ∀ u ∈ items, color u = c → m' ≤ shade u) : m = m' := by
  obtain ⟨u, hu, hc, rfl⟩ := h1
  obtain ⟨u', hu', hc', rfl⟩ := h1'
  exact le_antisymm (h2 _ hu' hc') (h2' _ hu hc)

/-- The table, entry by entry. -/
theorem colourTable_ok {α : Type} (items : List α) (color shade : α → ℚ) :
    ∃ tab, colourTable items color shade = .ok tab ∧ tab.map (·.1) = items ∧
      ∀ p ∈ tab, p.1 ∈ items ∧ colourBy items color shade p.1 = .ok p.2 := by
  classical
  let L : α → ℕ × ℚ := fun t => match colourBy items color shade t with
    | .ok l => l
    | .error _ => (0, 0)
  have hL : ∀ t ∈ items, colourBy items color shade t = .ok (L t) := by
    intro t ht
    obtain ⟨m, e, -⟩ := colourBy_eq (color := color) (shade := shade) ht
    simp only [L, e]
  refine ⟨items.map fun t => (t, L t), ?_, by rw [List.map_map]; exact List.map_id items, ?_⟩
  · unfold colourTable
    apply mapM_ok
    intro t ht
    rw [hL t ht]
    rfl
  · intro p hp
    obtain ⟨t, ht, rfl⟩ := List.mem_map.1 hp
    exact ⟨ht, hL t ht⟩

/-- Two items of one colour: same lightness exactly for the same shade. -/
theorem same_colour {α : Type} {items : List α} {color shade : α → ℚ} {t u : α} (ht : t ∈ items) (hu : u ∈ items) (h : color t = color u)
    {c d : ℕ × ℚ} (e : colourBy items color shade t = .ok c) (e' : colourBy items color shade u = .ok d) :
    c.1 = d.1 ∧ (c.2 = d.2 ↔ shade t = shade u) := by
  obtain ⟨m, e1, m1, m2⟩ := colourBy_eq (color := color) (shade := shade) ht
  obtain ⟨m', e1', m1', m2'⟩ := colourBy_eq (color := color) (shade := shade) hu
  rw [e, Except.ok.injEq] at e1
  rw [e', Except.ok.injEq] at e1'
  rw [← h] at m1' m2' e1'
  obtain rfl := least_unique m1 m2 m1' m2'
  subst e1 e1'
  refine ⟨rfl, ?_⟩
  have hpos : (0 : ℚ) < ((items.map color).count (color t) : ℕ) + 1 := by positivity
  constructor
  · intro h3
    simp only at h3
    field_simp at h3
    linarith
  · intro h3
    simp only [h3]

/-- C140 for at most ten different values of the property shown by colours.  Missing: more values, for which it is always false
(`C140_clash`). -/
theorem C140_ten_partial {α : Type} (items : List α) (color shade : α → ℚ) (h : (items.map color).toFinset.card ≤ 10) :
    ∃ tab, colourTable items color shade = .ok tab ∧ tab.map (·.1) = items ∧
      ∀ p ∈ tab, ∀ q ∈ tab, (p.2.1 = q.2.1 ↔ color p.1 = color q.1) ∧
        (p.2 = q.2 ↔ color p.1 = color q.1 ∧ shade p.1 = shade q.1) := by
  obtain ⟨tab, h1, h2, h3⟩ := colourTable_ok items color shade
  refine ⟨tab, h1, h2, fun p hp q hq => ?_⟩
  obtain ⟨hpi, ep⟩ := h3 p hp
  obtain ⟨hqi, eq⟩ := h3 q hq
  have hlen : (npUnique (items.map color)).length ≤ 10 := by unfold npUnique; rw [Finset.length_sort]; exact h
  have hm : ∀ t ∈ items, color t ∈ npUnique (items.map color) := fun t ht => mem_npUnique.2 (List.mem_map.2 ⟨t, ht, rfl⟩)
  have key : p.2.1 = q.2.1 ↔ color p.1 = color q.1 := by
    constructor
    · intro e
      obtain ⟨m, e1, -⟩ := colourBy_eq (color := color) (shade := shade) hpi
      obtain ⟨m', e2, -⟩ := colourBy_eq (color := color) (shade := shade) hqi
      rw [ep, Except.ok.injEq] at e1
      rw [eq, Except.ok.injEq] at e2
      rw [e1, e2] at e
      simp only [huePlace] at e
      have l1 := List.idxOf_lt_length_of_mem (hm _ hpi)
      have l2 := List.idxOf_lt_length_of_mem (hm _ hqi)
      exact (List.idxOf_inj (hm _ hpi)).1 (by omega)
    · intro e
      exact (same_colour hpi hqi e ep eq).1
  refine ⟨key, ?_⟩
  constructor
  · intro e
    have hc := key.1 (congrArg Prod.fst e)
    exact ⟨hc, (same_colour hpi hqi hc ep eq).2.1 (congrArg Prod.snd e)⟩
  · rintro ⟨hc, hs⟩
    have := same_colour hpi hqi hc ep eq
    exact Prod.ext this.1 (this.2.2 hs)

/-- Colours of the map are taken in the order of the property. -/
theorem C140_order {α : Type} {items : List α} {color shade : α → ℚ} {t u : α} (ht : t ∈ items) (hu : u ∈ items) (h : color t ≤ color u) :
    ∃ c d, colourBy items color shade t = .ok c ∧ colourBy items color shade u = .ok d ∧ c.1 ≤ d.1 ∧ d.1 ≤ 9 := by
  obtain ⟨m, e1, -⟩ := colourBy_eq (color := color) (shade := shade) ht
  obtain ⟨m', e2, -⟩ := colourBy_eq (color := color) (shade := shade) hu
  refine ⟨_, _, e1, e2, min_le_min_right _ ?_, min_le_right _ _⟩
  have hm : ∀ t ∈ items, color t ∈ npUnique (items.map color) := fun t ht => mem_npUnique.2 (List.mem_map.2 ⟨t, ht, rfl⟩)
  by_contra hlt
  have hs : (npUnique (items.map color)).Pairwise (· < ·) := Finset.sortedLT_sort _ |>.pairwise
  have := List.pairwise_iff_getElem.1 hs _ _ (List.idxOf_lt_length_of_mem (hm _ hu)) (List.idxOf_lt_length_of_mem (hm _ ht)) (not_le.1 hlt)
  rw [List.getElem_idxOf, List.getElem_idxOf] at this
  exact absurd h (not_le.2 this)

/-- The least value takes the first colour of the map. -/
theorem C140_first {α : Type} {items : List α} {color shade : α → ℚ} {t : α} (ht : t ∈ items) (h : ∀ u ∈ items, color t ≤ color u) :
    ∃ l, colourBy items color shade t = .ok (0, l) := by
  obtain ⟨m, e1, -⟩ := colourBy_eq (color := color) (shade := shade) ht
  rw [e1]
  have hm : color t ∈ npUnique (items.map color) := mem_npUnique.2 (List.mem_map.2 ⟨t, ht, rfl⟩)
  have hs : (npUnique (items.map color)).Pairwise (· < ·) := Finset.sortedLT_sort _ |>.pairwise
  have : (npUnique (items.map color)).idxOf (color t) = 0 := by
    by_contra hne
    have hl := List.idxOf_lt_length_of_mem hm
    have h1 := List.pairwise_iff_getElem.1 hs 0 _ (by omega) hl (by omega)
    rw [List.getElem_idxOf] at h1
    obtain ⟨u, hu, e⟩ := List.mem_map.1 (mem_npUnique.1 (List.getElem_mem (l := npUnique (items.map color)) (n := 0) (by omega)))
    have := h u hu
    rw [e] at this
    exact absurd h1 (not_lt.2 this)
  exact ⟨_, by rw [huePlace, this]; rfl⟩

/-- With more than ten values two items with different values always share a colour of the map. -/
theorem C140_clash {α : Type} {items : List α} {color shade : α → ℚ} (h : 10 < (items.map color).toFinset.card) :
    ∃ t ∈ items, ∃ u ∈ items, color t ≠ color u ∧
      ∃ c d, colourBy items color shade t = .ok c ∧ colourBy items color shade u = .ok d ∧ c.1 = d.1 := by
  obtain ⟨x, hx, y, hy, hne, he⟩ := Finset.exists_ne_map_eq_of_card_lt_of_maps_to (s := (items.map color).toFinset)
    (t := Finset.range 10) (f := huePlace (items.map color)) (by rw [Finset.card_range]; exact h)
    (fun c _ => by simp [huePlace])
  obtain ⟨t, ht, rfl⟩ := List.mem_map.1 (List.mem_toFinset.1 hx)
  obtain ⟨u, hu, rfl⟩ := List.mem_map.1 (List.mem_toFinset.1 hy)
  obtain ⟨m, e1, -⟩ := colourBy_eq (color := color) (shade := shade) ht
  obtain ⟨m', e2, -⟩ := colourBy_eq (color := color) (shade := shade) hu
  exact ⟨t, ht, u, hu, hne, _, _, e1, e2, he⟩

/-- C140: an object whose value of the coloured property none of the items has gets no colour; the lookup raises `ValueError`. -/
theorem C140_raises {α : Type} {items : List α} {color shade : α → ℚ} {t : α} (h : ∀ u ∈ items, color u ≠ color t) :
    colourBy items color shade t = .error .ValueError := by
  have hm : color t ∉ npUnique (items.map color) := by
    rw [mem_npUnique, List.mem_map]
    rintro ⟨u, hu, e⟩
    exact h u hu e
  unfold colourBy hueIndex
  rw [if_neg hm]
  rfl

/-- A line from `F = 3` beside lines from `F = 1` and `F = 2`. -/
example : colourBy ([1, 2] : List ℚ) id id 3 = .error .ValueError := C140_raises (by decide)

/-- C140 fails: eleven lines from the sublevels `mF = 0, …, 10`. -/
theorem C140_fails : ¬C140_full := by
  intro H
  have hc : 10 < (((List.range 11).map fun i : ℕ => (i : ℚ)).map id).toFinset.card := by decide +kernel
  obtain ⟨t, ht, u, hu, hne, c, d, e1, e2, he⟩ := C140_clash (shade := id) hc
  obtain ⟨tab, h1, h2, h3⟩ := H ℚ ((List.range 11).map fun i : ℕ => (i : ℚ)) id id
  obtain ⟨tab', h1', -, h3'⟩ := colourTable_ok ((List.range 11).map fun i : ℕ => (i : ℚ)) id id
  rw [h1, Except.ok.injEq] at h1'
  subst h1'
  have hmem : ∀ t ∈ (List.range 11).map fun i : ℕ => (i : ℚ), ∀ c, colourBy ((List.range 11).map fun i : ℕ => (i : ℚ)) id id t = .ok c →
      (t, c) ∈ tab := by
    intro t ht c e
    rw [← h2] at ht
    obtain ⟨p, hp, rfl⟩ := List.mem_map.1 ht
    have := (h3' p hp).2
    rw [e, Except.ok.injEq] at this
    rw [this]
    exact hp
  exact hne ((h3 _ (hmem t ht c e1) _ (hmem u hu d e2)).1.1 he)

/-- Ten values. -/
example : (((List.range 10).map fun i : ℕ => (i : ℚ)).map id).toFinset.card ≤ 10 := by decide +kernel

/-- Lines from three levels `F = 1, 2, 3`, two from the first. -/
example : (([(1, 0), (1, 2), (2, 1), (3, 1)] : List (ℚ × ℚ)).map (·.1)).toFinset.card ≤ 10 := by decide +kernel

end AtomTk
