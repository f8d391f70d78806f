import Verif.Model.Environment
import Verif.Model.Grotrian
import Mathlib.Tactic.Linarith
import Mathlib.Tactic.Positivity
import Mathlib.Tactic.FieldSimp
import Mathlib.Tactic.Ring
import Mathlib.Tactic.NormNum
import Mathlib.Tactic.IntervalCases

/-!
# Light fields, colours, boxes: C67, C69, C70, C76
-/

namespace AtomTk

/-! ## Minimum and maximum -/

theorem foldl_min_le (l : List ℚ) (a : ℚ) : l.foldl min a ≤ a ∧ ∀ x ∈ l, l.foldl min a ≤ x := by
  induction l generalizing a with
  | nil => simp
  | cons b l ih =>
    simp only [List.foldl_cons]
    obtain ⟨h1, h2⟩ := ih (min a b)
    refine ⟨h1.trans (min_le_left _ _), ?_⟩
    intro x hx
    rcases List.mem_cons.1 hx with rfl | hx
    · exact h1.trans (min_le_right _ _)
    · exact h2 x hx

theorem foldl_min_mem (l : List ℚ) (a : ℚ) : l.foldl min a = a ∨ l.foldl min a ∈ l := by
  induction l generalizing a with
  | nil => simp
  | cons b l ih =>
    simp only [List.foldl_cons]
    rcases ih (min a b) with h | h
    · rw [h]
      rcases min_choice a b with h' | h'
      · left; exact h'
      · right; rw [h']; exact List.mem_cons_self
    · right; exact List.mem_cons_of_mem _ h

theorem le_foldl_max (l : List ℚ) (a : ℚ) : a ≤ l.foldl max a ∧ ∀ x ∈ l, x ≤ l.foldl max a := by
  induction l generalizing a with
  | nil => simp
  | cons b l ih =>
    simp only [List.foldl_cons]
    obtain ⟨h1, h2⟩ := ih (max a b)
    refine ⟨(le_max_left _ _).trans h1, ?_⟩
    intro x hx
    rcases List.mem_cons.1 hx with rfl | hx
    · exact (le_max_right _ _).trans h1
    · exact h2 x hx

theorem foldl_max_mem (l : List ℚ) (a : ℚ) : l.foldl max a = a ∨ l.foldl max a ∈ l := by
  induction l generalizing a with
  | nil => simp
  | cons b l ih =>
    simp only [List.foldl_cons]
    rcases ih (max a b) with h | h
    · rw [h]
      rcases max_choice a b with h' | h'
      · left; exact h'
      · right; rw [h']; exact List.mem_cons_self
    · right; exact List.mem_cons_of_mem _ h

/-- `pyMin` gives the least element of a list that is not empty. -/
theorem pyMin_ok {l : List ℚ} (h : l ≠ []) : ∃ m, pyMin l = .ok m ∧ m ∈ l ∧ ∀ x ∈ l, m ≤ x := by
  cases l with
  | nil => exact absurd rfl h
  | cons a l =>
    obtain ⟨h1, h2⟩ := foldl_min_le l a
    refine ⟨_, rfl, ?_, ?_⟩
    · rcases foldl_min_mem l a with h | h
      · rw [h]; exact List.mem_cons_self
      · exact List.mem_cons_of_mem _ h
    · intro x hx
      rcases List.mem_cons.1 hx with rfl | hx
      · exact h1
      · exact h2 x hx

/-- `pyMax` gives the greatest element of a list that is not empty. -/
theorem pyMax_ok {l : List ℚ} (h : l ≠ []) : ∃ m, pyMax l = .ok m ∧ m ∈ l ∧ ∀ x ∈ l, x ≤ m := by
  cases l with
  | nil => exact absurd rfl h
  | cons a l =>
    obtain ⟨h1, h2⟩ := le_foldl_max l a
    refine ⟨_, rfl, ?_, ?_⟩
    · rcases foldl_max_mem l a with h | h
      · rw [h]; exact List.mem_cons_self
      · exact List.mem_cons_of_mem _ h
    · intro x hx
      rcases List.mem_cons.1 hx with rfl | hx
      · exact h1
      · exact h2 x hx

/-! ## C67 -/

/-- The point lies in the box. -/
def Box.Has (b : Box) (p : Pt) : Prop := b.x0 ≤ p.1 ∧ p.1 ≤ b.x1 ∧ b.y0 ≤ p.2 ∧ p.2 ≤ b.y1

theorem bbox_ok {pts : List Pt} (h : pts ≠ []) (pad : ℚ) : ∃ b lx hx ly hy, bbox pts pad = .ok b ∧
    b = ⟨lx - pad, ly - (hy - ly) * pad, hx + pad, hy + (hy - ly) * pad⟩ ∧
    (∀ p ∈ pts, lx ≤ p.1 ∧ p.1 ≤ hx ∧ ly ≤ p.2 ∧ p.2 ≤ hy) ∧
    (∃ p ∈ pts, p.1 = lx) ∧ (∃ p ∈ pts, p.1 = hx) ∧ (∃ p ∈ pts, p.2 = ly) ∧ ∃ p ∈ pts, p.2 = hy := by
  obtain ⟨hy, e1, m1, g1⟩ := pyMax_ok (l := pts.map (·.2)) (by simpa using h)
  obtain ⟨ly, e2, m2, g2⟩ := pyMin_ok (l := pts.map (·.2)) (by simpa using h)
  obtain ⟨lx, e3, m3, g3⟩ := pyMin_ok (l := pts.map (·.1)) (by simpa using h)
  obtain ⟨hx, e4, m4, g4⟩ := pyMax_ok (l := pts.map (·.1)) (by simpa using h)
  refine ⟨_, lx, hx, ly, hy, ?_, rfl, ?_, ?_, ?_, ?_, ?_⟩
  · unfold bbox
    rw [e1, e2, e3, e4]
    rfl
  · intro p hp
    exact ⟨g3 _ (List.mem_map.2 ⟨p, hp, rfl⟩), g4 _ (List.mem_map.2 ⟨p, hp, rfl⟩), g2 _ (List.mem_map.2 ⟨p, hp, rfl⟩),
      g1 _ (List.mem_map.2 ⟨p, hp, rfl⟩)⟩
  · obtain ⟨p, hp, h⟩ := List.mem_map.1 m3; exact ⟨p, hp, h⟩
  · obtain ⟨p, hp, h⟩ := List.mem_map.1 m4; exact ⟨p, hp, h⟩
  · obtain ⟨p, hp, h⟩ := List.mem_map.1 m2; exact ⟨p, hp, h⟩
  · obtain ⟨p, hp, h⟩ := List.mem_map.1 m1; exact ⟨p, hp, h⟩

/-- C67, boxes: with padding that is not negative the box contains all the points; and it is the least such box extended by the
padding, so with no padding each side touches a point. -/
theorem C67_bbox {pts : List Pt} (h : pts ≠ []) {pad : ℚ} (hp : 0 ≤ pad) : ∃ b, bbox pts pad = .ok b ∧
    (∀ p ∈ pts, b.Has p) ∧ b.x0 ≤ b.x1 ∧ b.y0 ≤ b.y1 ∧
    (∃ p ∈ pts, b.x0 = p.1 - pad) ∧ (∃ p ∈ pts, b.x1 = p.1 + pad) ∧ (pad = 0 → (∃ p ∈ pts, b.y0 = p.2) ∧ ∃ p ∈ pts, b.y1 = p.2) := by
  obtain ⟨b, lx, hx, ly, hy, e, rfl, g, ⟨p1, m1, q1⟩, ⟨p2, m2, q2⟩, ⟨p3, m3, q3⟩, p4, m4, q4⟩ := bbox_ok h pad
  have hxx : lx ≤ hx := by have := g p1 m1; linarith
  have hyy : ly ≤ hy := by have := g p3 m3; linarith
  have hpy : 0 ≤ (hy - ly) * pad := mul_nonneg (by linarith) hp
  refine ⟨_, e, ?_, by show lx - pad ≤ hx + pad; linarith, by show ly - _ ≤ hy + _; linarith, ⟨p1, m1, by rw [q1]⟩, ⟨p2, m2, by rw [q2]⟩, ?_⟩
  · intro p hp
    obtain ⟨a1, a2, a3, a4⟩ := g p hp
    refine ⟨?_, ?_, ?_, ?_⟩
    · show lx - pad ≤ p.1; linarith
    · show p.1 ≤ hx + pad; linarith
    · show ly - (hy - ly) * pad ≤ p.2; linarith
    · show p.2 ≤ hy + (hy - ly) * pad; linarith
  · rintro rfl
    refine ⟨⟨p3, m3, ?_⟩, p4, m4, ?_⟩
    · show ly - (hy - ly) * 0 = p3.2; rw [q3]; ring
    · show hy + (hy - ly) * 0 = p4.2; rw [q4]; ring

/-- No points, no box. -/
theorem C67_no_points (pad : ℚ) : bbox [] pad = .error .ValueError := rfl

/-- Where anchor `n` is said to be (render/grotrian.py:127-131): columns left, middle, right, rows top, middle, bottom. -/
def anchorSpec (b : Box) (n : ℕ) : Pt :=
  ([b.x0, (b.x0 + b.x1) / 2, b.x1].getD ((n - 1) % 3) 0, [b.y1, (b.y0 + b.y1) / 2, b.y0].getD ((n - 1) / 3) 0)

/-- C67, anchors: anchors 1 to 9 are where they are documented to be, and in the box. -/
theorem C67_anchors (b : Box) (hx : b.x0 ≤ b.x1) (hy : b.y0 ≤ b.y1) (n : ℕ) (h1 : 1 ≤ n) (h9 : n ≤ 9) :
    ∃ p, boxPos b n (0, 0) = .ok p ∧ p = anchorSpec b n ∧ b.Has p := by
  unfold boxPos
  interval_cases n <;>
    (refine ⟨_, rfl, ?_, ?_⟩
     · simp only [anchorSpec]
       refine Prod.ext ?_ ?_ <;> simp <;> ring
     · refine ⟨?_, ?_, ?_, ?_⟩ <;> simp <;> linarith)

/-- The offset moves the anchor. -/
theorem C67_offset (b : Box) (n : ℕ) (h1 : 1 ≤ n) (h9 : n ≤ 9) (off : Pt) :
    ∃ p, boxPos b n (0, 0) = .ok p ∧ boxPos b n off = .ok (p.1 + off.1, p.2 + off.2) := by
  unfold boxPos
  interval_cases n <;> exact ⟨_, rfl, by simp [posDict, Dict.getE, Dict.get?, bind, Except.bind]⟩

/-- Every other integer raises `KeyError`. -/
theorem C67_no_anchor (b : Box) (n : ℤ) (h : n < 1 ∨ 9 < n) (off : Pt) : boxPos b n off = .error .KeyError := by
  have : posDict.getE n = .error .KeyError := by
    have hn : posDict.get? n = none := by
      simp only [posDict, Dict.get?]
      repeat rw [if_neg (by omega)]
    unfold Dict.getE
    rw [hn]
  unfold boxPos
  rw [this]
  rfl

/-- Two points. -/
example : bbox [(0, 0), (2, 4)] (1/20) = .ok ⟨-1/20, -1/5, 41/20, 21/5⟩ := by decide +kernel

/-! ## C69 -/

/-- The full claim. -/
def C69_full : Prop := ∀ (α : Type) (items : List α) (color shade : α → ℚ),
  ∃ t, shadeTable items color (some shade) = .ok t ∧ ∀ p ∈ t, 1/5 ≤ p.2 ∧ p.2 ≤ 4/5

theorem mapM_ok {α β : Type} {f : α → Py β} {g : α → β} (l : List α) (h : ∀ a ∈ l, f a = .ok (g a)) : l.mapM f = .ok (l.map g) := by
  induction l with
  | nil => rfl
  | cons a l ih =>
    rw [List.mapM_cons, h a List.mem_cons_self, ih fun x hx => h x (List.mem_cons_of_mem _ hx)]
    rfl

/-- The least shade among the items of one colour. -/
theorem shade_least {α : Type} (items : List α) (color shade : α → ℚ) {t : α} (ht : t ∈ items) :
    ∃ m, lightness (items.map fun u => (color u, shade u)) (color t) (shade t) =
        .ok (1/5 + 3/5 * (shade t - m + 1) / (((items.map color).count (color t) : ℕ) + 1)) ∧
      (∃ u ∈ items, color u = color t ∧ shade u = m) ∧ ∀ u ∈ items, color u = color t → m ≤ shade u := by
  obtain ⟨m, e, h1, h2⟩ := pyMin_ok (l := (((items.map fun u => (color u, shade u)).filter (·.1 = color t)).map (·.2))) (by
    intro h
    rw [List.map_eq_nil_iff, List.filter_eq_nil_iff] at h
    exact h (color t, shade t) (List.mem_map.2 ⟨t, ht, rfl⟩) (by simp))
  refine ⟨m, ?_, ?_, ?_⟩
  · unfold lightness
    rw [e]
    simp only [bind, Except.bind, List.map_map]
    rfl
  · simp only [List.mem_map, List.mem_filter, decide_eq_true_eq] at h1
    obtain ⟨p, ⟨⟨u, hu, rfl⟩, hc⟩, rfl⟩ := h1
    exact ⟨u, hu, hc, rfl⟩
  · intro u hu hc
    apply h2
    simp only [List.mem_map, List.mem_filter, decide_eq_true_eq]
    exact ⟨_, ⟨⟨u, hu, rfl⟩, hc⟩, rfl⟩

/-- What the table looks like: one entry per item, in order, lighter than 0.2, and within one colour the lightness increases with
the shade. -/
theorem C69_lower_partial {α : Type} (items : List α) (color shade : α → ℚ) :
    ∃ t, shadeTable items color (some shade) = .ok t ∧ t.map (·.1) = items ∧ (∀ p ∈ t, 1/5 < p.2) ∧
      ∀ p ∈ t, ∀ q ∈ t, color p.1 = color q.1 → (p.2 < q.2 ↔ shade p.1 < shade q.1) := by
  classical
  -- the lightness as a function
  let L : α → ℚ := fun t => match lightness (items.map fun u => (color u, shade u)) (color t) (shade t) with
    | .ok l => l
    | .error _ => 0
  have hL : ∀ t ∈ items, lightness (items.map fun u => (color u, shade u)) (color t) (shade t) = .ok (L t) := by
    intro t ht
    obtain ⟨m, e, -⟩ := shade_least items color shade ht
    simp only [L]
    rw [e]
  refine ⟨items.map fun t => (t, L t), ?_, ?_, ?_, ?_⟩
  · unfold shadeTable
    apply mapM_ok
    intro t ht
    rw [hL t ht]
    rfl
  · rw [List.map_map]; exact List.map_id' _
  · intro p hp
    obtain ⟨t, ht, rfl⟩ := List.mem_map.1 hp
    obtain ⟨m, e, -, h2⟩ := shade_least items color shade ht
    rw [hL t ht, Except.ok.injEq] at e
    show 1/5 < L t
    rw [e]
    have := h2 t ht rfl
    have : 0 < 3/5 * (shade t - m + 1) / (((items.map color).count (color t) : ℕ) + 1 : ℚ) := by
      apply div_pos
      · linarith
      · positivity
    linarith
  · intro p hp q hq hc
    obtain ⟨t, ht, rfl⟩ := List.mem_map.1 hp
    obtain ⟨u, hu, rfl⟩ := List.mem_map.1 hq
    obtain ⟨m, e, ⟨a, ha, hac, ham⟩, h2⟩ := shade_least items color shade ht
    obtain ⟨m', e', ⟨b, hb, hbc, hbm⟩, h2'⟩ := shade_least items color shade hu
    simp only at hc
    have hmm : m = m' := by
      apply le_antisymm
      · rw [← hbm]; exact h2 b hb (hbc.trans hc.symm)
      · rw [← ham]; exact h2' a ha (hac.trans hc)
    rw [hL t ht, Except.ok.injEq] at e
    rw [hL u hu, Except.ok.injEq] at e'
    show L t < L u ↔ shade t < shade u
    rw [e, e', hc, hmm]
    have hpos : (0 : ℚ) < ((items.map color).count (color u) : ℕ) + 1 := by positivity
    rw [add_lt_add_iff_left, div_lt_div_iff_of_pos_right hpos]
    constructor <;> intro h <;> linarith

/-- Descending from a shade in unit steps through items of the same colour. -/
theorem chain_count {α : Type} (items : List α) (color shade : α → ℚ) (c m : ℚ) (n : ℕ)
    (h : ∀ i ≤ n, ∃ u ∈ items, color u = c ∧ shade u = m + i) : n + 1 ≤ (items.map color).count c := by
  classical
  have h1 : ((List.range (n + 1)).map fun i : ℕ => m + (i : ℚ)).Subset ((items.filter (color · = c)).map shade) := by
    intro x hx
    obtain ⟨i, hi, rfl⟩ := List.mem_map.1 hx
    obtain ⟨u, hu, hc, hs⟩ := h i (by have := List.mem_range.1 hi; omega)
    exact List.mem_map.2 ⟨u, List.mem_filter.2 ⟨hu, by simpa using hc⟩, hs⟩
  have h2 : ((List.range (n + 1)).map fun i : ℕ => m + (i : ℚ)).Nodup := by
    rw [List.nodup_map_iff_inj_on List.nodup_range]
    intro a _ b _ hab
    have : (a : ℚ) = b := by linarith
    exact_mod_cast this
  have h3 := (h2.subperm h1).length_le
  simp only [List.length_map, List.length_range] at h3
  rw [List.count_eq_countP, List.countP_map, List.countP_eq_length_filter]
  refine h3.trans (le_of_eq ?_)
  congr 1

/-- C69 when the shades of every colour come without gaps (each is the least one of its colour or one more than another): then
all lightnesses lie between 0.2 and 0.8.  Missing: shades with gaps, `C69_fails`. -/
theorem C69_gapless_partial {α : Type} (items : List α) (color shade : α → ℚ)
    (h : ∀ t ∈ items, (∀ u ∈ items, color u = color t → shade t ≤ shade u) ∨ ∃ u ∈ items, color u = color t ∧ shade u + 1 = shade t) :
    ∃ t, shadeTable items color (some shade) = .ok t ∧ ∀ p ∈ t, 1/5 ≤ p.2 ∧ p.2 ≤ 4/5 := by
  obtain ⟨tab, e, h1, h2, -⟩ := C69_lower_partial items color shade
  refine ⟨tab, e, fun p hp => ⟨(h2 p hp).le, ?_⟩⟩
  have hpi : p.1 ∈ items := by rw [← h1]; exact List.mem_map.2 ⟨p, hp, rfl⟩
  -- the entry of p
  have hval : ∃ m, p.2 = 1/5 + 3/5 * (shade p.1 - m + 1) / (((items.map color).count (color p.1) : ℕ) + 1) ∧
      (∃ u ∈ items, color u = color p.1 ∧ shade u = m) ∧ ∀ u ∈ items, color u = color p.1 → m ≤ shade u := by
    obtain ⟨m, e1, e2, e3⟩ := shade_least items color shade hpi
    refine ⟨m, ?_, e2, e3⟩
    have hmem : ∀ (l : List α) tab, (l.mapM fun t => do
        let l ← lightness (items.map fun u => (color u, shade u)) (color t) (shade t)
        Except.ok (t, l)) = Except.ok (ε := PyErr) tab → ∀ p ∈ tab, lightness (items.map fun u => (color u, shade u)) (color p.1) (shade p.1) = .ok p.2 := by
      intro l
      induction l with
      | nil => intro tab h p hp; simp [List.mapM_nil, pure, Except.pure] at h; rw [h] at hp; simp at hp
      | cons a l ih =>
        intro tab h p hp
        rw [List.mapM_cons] at h
        cases ha : lightness (items.map fun u => (color u, shade u)) (color a) (shade a) with
        | error er => rw [ha] at h; simp [bind, Except.bind] at h
        | ok v =>
          rw [ha] at h
          cases hl : (l.mapM fun t => do
              let l ← lightness (items.map fun u => (color u, shade u)) (color t) (shade t)
              Except.ok (ε := PyErr) (t, l)) with
          | error er => simp only [bind, Except.bind] at h hl; rw [hl] at h; simp at h
          | ok tl =>
            have hl' := hl
            simp only [bind, Except.bind, pure, Except.pure] at h hl'
            rw [hl'] at h
            simp only [Except.ok.injEq] at h
            rw [← h] at hp
            rcases List.mem_cons.1 hp with rfl | hp
            · exact ha
            · exact ih tl hl p hp
    have := hmem items tab e p hp
    rw [e1] at this
    simpa using this.symm
  obtain ⟨m, e1, ⟨u0, hu0, hc0, hs0⟩, e3⟩ := hval
  -- all shades between the least one and that of p occur
  have key : ∀ n : ℕ, ∀ t ∈ items, color t = color p.1 → shade t < m + n + 1 →
      ∃ k : ℕ, shade t = m + k ∧ ∀ i ≤ k, ∃ u ∈ items, color u = color p.1 ∧ shade u = m + i := by
    intro n
    induction n with
    | zero =>
      intro t ht hc hlt
      rcases h t ht with hl | ⟨u, hu, huc, hus⟩
      · have h3 : shade t = m := le_antisymm (by rw [← hs0]; exact hl u0 hu0 (hc0.trans hc.symm)) (e3 t ht hc)
        exact ⟨0, by simpa using h3, fun i hi => ⟨t, ht, hc, by rw [h3]; simp [Nat.le_zero.1 hi]⟩⟩
      · have := e3 u hu (huc.trans hc)
        push_cast at hlt
        linarith
    | succ n ih =>
      intro t ht hc hlt
      rcases h t ht with hl | ⟨u, hu, huc, hus⟩
      · have h3 : shade t = m := le_antisymm (by rw [← hs0]; exact hl u0 hu0 (hc0.trans hc.symm)) (e3 t ht hc)
        exact ⟨0, by simpa using h3, fun i hi => ⟨t, ht, hc, by rw [h3]; simp [Nat.le_zero.1 hi]⟩⟩
      · obtain ⟨k, hk, hall⟩ := ih u hu (huc.trans hc) (by push_cast at hlt; linarith)
        refine ⟨k + 1, by push_cast; linarith, fun i hi => ?_⟩
        rcases Nat.lt_or_ge k i with h4 | h4
        · obtain rfl : i = k + 1 := by omega
          exact ⟨t, ht, hc, by push_cast; linarith⟩
        · exact hall i h4
  obtain ⟨n, hn⟩ := exists_nat_gt (shade p.1 - m)
  obtain ⟨k, hk, hall⟩ := key n p.1 hpi rfl (by linarith)
  have hcount := chain_count items color shade (color p.1) m k hall
  have hq : (k : ℚ) + 1 ≤ ((items.map color).count (color p.1) : ℕ) := by exact_mod_cast hcount
  rw [e1, hk]
  have hpos : (0 : ℚ) < ((items.map color).count (color p.1) : ℕ) + 1 := by positivity
  have : 3/5 * (m + k - m + 1) / (((items.map color).count (color p.1) : ℕ) + 1 : ℚ) ≤ 3/5 := by
    rw [div_le_iff₀ hpos]
    linarith
  linarith

/-- C69 fails: two items of one colour with shades 0 and 5; the second gets lightness 1.4. -/
theorem C69_fails : ¬C69_full := by
  intro h
  obtain ⟨t, h1, h2⟩ := h ℚ [0, 5] (fun _ => 0) id
  have h3 : shadeTable [(0 : ℚ), 5] (fun _ => 0) (some id) = .ok [(0, 2/5), (5, 7/5)] := by decide +kernel
  rw [h3, Except.ok.injEq] at h1
  have := (h2 (5, 7/5) (by rw [← h1]; simp)).2
  norm_num at this

/-- Without `property_shade`, which is optional, the function raises. -/
theorem C69_default_raises {α : Type} (a : α) (l : List α) (color : α → ℚ) : shadeTable (a :: l) color none = .error .TypeError := rfl

/-- Without items there is nothing to call: the table is empty, whatever the properties. -/
theorem C69_empty {α : Type} (color : α → ℚ) (shade : Option (α → ℚ)) : shadeTable [] color shade = .ok [] := by
  cases shade <;> rfl

/-- Three lines with the upper levels 1, 2, 3. -/
example : ∃ t, shadeTable [(1 : ℚ), 2, 3] (fun _ => 0) (some id) = .ok t ∧ ∀ p ∈ t, 1/5 ≤ p.2 ∧ p.2 ≤ 4/5 := by
  apply C69_gapless_partial
  intro t ht
  simp only [List.mem_cons, List.not_mem_nil, or_false] at ht
  rcases ht with rfl | rfl | rfl
  · left; intro u hu _; simp only [List.mem_cons, List.not_mem_nil, or_false] at hu; rcases hu with rfl | rfl | rfl <;> simp
  · right; exact ⟨1, by simp, rfl, by norm_num⟩
  · right; exact ⟨2, by simp, rfl, by norm_num⟩

/-! ## C70 -/

/-- The full claim. -/
def C70_full : Prop := ∀ (k : List ℂ) (i : ℝ) (pol : List ℂ) (f : LightField), newLight k i pol = .ok f → |vnorm f.pol - 1| ≤ 1 / 1000000

/-- The check bounds the length from above only; everything shorter passes; and what passes is stored unchanged. -/
theorem C70_upper_partial (k : List ℂ) (i : ℝ) (pol : List ℂ) :
    (∀ f, newLight k i pol = .ok f → vnorm f.pol < 1 + 1 / 1000000 ∧ f.pol = pol ∧ f.k = k ∧ f.intensity = i) ∧
    (1 + 1 / 1000000 ≤ vnorm pol → newLight k i pol = .error .AssertionError) ∧
    (vnorm pol < 1 + 1 / 1000000 → newLight k i pol = .ok ⟨k, i, pol⟩) := by
  unfold newLight
  refine ⟨?_, ?_, ?_⟩
  · intro f h
    split at h
    · cases h
      exact ⟨by show vnorm pol < _; linarith, rfl, rfl, rfl⟩
    · cases h
  · intro h
    rw [if_neg (by linarith)]
  · intro h
    rw [if_pos (by linarith)]

/-- C70 fails: the zero vector is accepted. -/
theorem C70_fails : ¬C70_full := by
  intro h
  have h0 : vnorm [0, 0, 0] = 0 := by unfold vnorm; simp
  have h1 : newLight [] 1 [0, 0, 0] = .ok ⟨[], 1, [0, 0, 0]⟩ := by
    unfold newLight
    rw [h0, if_pos (by norm_num)]
  have := h [] 1 [0, 0, 0] _ h1
  rw [h0] at this
  norm_num at this

/-- The default polarisation is accepted. -/
example : newLight [] 1 [0, 0, 1] = .ok ⟨[], 1, [0, 0, 1]⟩ := (C70_upper_partial [] 1 [0, 0, 1]).2.2 (by unfold vnorm; simp)

/-! ## C76 -/

/-- The full claim: the field of a light field of unit polarisation has the intensity it was made with, and a Gaussian beam of
power `P` and waist `w0` can be made and has the intensity `2 P / (pi w0^2)`. -/
def C76_full : Prop := (∀ (c eps : ℝ) (f : LightField), 0 < c → 0 < eps → 0 ≤ f.intensity → vnorm f.pol = 1 →
    c * eps / 2 * vnorm (f.E c eps) ^ 2 = f.intensity) ∧
  ∀ (k : List ℂ) (P : ℝ) (pol : List ℂ) (w0 : ℝ), 0 < P → 0 < w0 → vnorm pol = 1 →
    ∃ f, newBeam k P pol w0 = .ok f ∧ f.intensity = 2 * P / (Real.pi * w0 ^ 2)

theorem vnorm_sq (v : List ℂ) : vnorm v ^ 2 = (v.map fun z => ‖z‖ ^ 2).sum := by
  unfold vnorm
  rw [Real.sq_sqrt]
  apply List.sum_nonneg
  intro x hx
  obtain ⟨z, -, rfl⟩ := List.mem_map.1 hx
  positivity

theorem vnorm_scale (v : List ℂ) (r : ℝ) : vnorm (v.map (· * (r : ℂ))) ^ 2 = r ^ 2 * vnorm v ^ 2 := by
  rw [vnorm_sq, vnorm_sq, List.map_map]
  induction v with
  | nil => simp
  | cons a v ih =>
    rw [List.map_cons, List.sum_cons, ih, List.map_cons, List.sum_cons]
    simp only [Function.comp, norm_mul, Complex.norm_real, Real.norm_eq_abs, mul_pow, sq_abs]
    ring

/-- C76 for plane light fields. -/
theorem C76_intensity_partial {c eps : ℝ} {f : LightField} (hc : 0 < c) (he : 0 < eps) (hi : 0 ≤ f.intensity) (hp : vnorm f.pol = 1) :
    c * eps / 2 * vnorm (f.E c eps) ^ 2 = f.intensity := by
  unfold LightField.E
  rw [vnorm_scale, hp]
  unfold fieldScale
  rw [Real.sq_sqrt (by positivity)]
  field_simp

/-- The magnetic field of a plane light field is orthogonal to the electric field and to the wave vector (without conjugation, as
the code's cross product). -/
theorem C76_orthogonal_partial {c eps : ℝ} {k1 k2 k3 p1 p2 p3 : ℂ} {i : ℝ} :
    ∃ b1 b2 b3 e1 e2 e3, LightField.B c eps ⟨[k1, k2, k3], i, [p1, p2, p3]⟩ = .ok [b1, b2, b3] ∧
      LightField.E c eps ⟨[k1, k2, k3], i, [p1, p2, p3]⟩ = [e1, e2, e3] ∧
      b1 * e1 + b2 * e2 + b3 * e3 = 0 ∧ b1 * k1 + b2 * k2 + b3 * k3 = 0 := by
  refine ⟨_, _, _, _, _, _, rfl, rfl, ?_, ?_⟩ <;> ring

/-- The sizes of the two fields differ by the factor `c`, for a real wave vector of length one orthogonal to the polarisation. -/
theorem C76_size_partial {c eps : ℝ} {k1 k2 k3 : ℝ} {p1 p2 p3 : ℂ} {i : ℝ} (hc : 0 < c) (hk : k1 ^ 2 + k2 ^ 2 + k3 ^ 2 = 1)
    (ho : k1 * p1 + k2 * p2 + k3 * p3 = 0) : ∃ b, LightField.B c eps ⟨[(k1 : ℂ), k2, k3], i, [p1, p2, p3]⟩ = .ok b ∧
      c * vnorm b = vnorm (LightField.E c eps ⟨[(k1 : ℂ), k2, k3], i, [p1, p2, p3]⟩) := by
  refine ⟨_, rfl, ?_⟩
  have h : ∀ v : List ℂ, 0 ≤ vnorm v := fun v => Real.sqrt_nonneg _
  rw [← sq_eq_sq₀ (mul_nonneg hc.le (h _)) (h _), mul_pow, vnorm_sq, vnorm_sq]
  simp only [LightField.E, List.map_cons, List.map_nil, List.sum_cons, List.sum_nil, Complex.sq_norm, Complex.normSq_apply, Complex.sub_re, Complex.sub_im, Complex.mul_re, Complex.mul_im,
    Complex.ofReal_re, Complex.ofReal_im]
  have hr := congrArg Complex.re ho
  have hi := congrArg Complex.im ho
  simp only [Complex.add_re, Complex.add_im, Complex.mul_re, Complex.mul_im, Complex.ofReal_re, Complex.ofReal_im, Complex.zero_re,
    Complex.zero_im, zero_mul, sub_zero, add_zero] at hr hi
  set f := fieldScale c eps i
  field_simp
  linear_combination (f ^ 2 * (p1.re ^ 2 + p1.im ^ 2 + p2.re ^ 2 + p2.im ^ 2 + p3.re ^ 2 + p3.im ^ 2)) * hk -
    f ^ 2 * (k1 * p1.re + k2 * p2.re + k3 * p3.re) * hr - f ^ 2 * (k1 * p1.im + k2 * p2.im + k3 * p3.im) * hi

/-- A unit wave vector and an orthogonal circular polarisation. -/
example : ((0 : ℝ)) ^ 2 + 0 ^ 2 + 1 ^ 2 = 1 ∧ ((0 : ℝ) : ℂ) * 1 + ((0 : ℝ) : ℂ) * Complex.I + ((1 : ℝ) : ℂ) * 0 = 0 := by simp

/-- No Gaussian beam can be made: the constructor always raises. -/
theorem C76_beam_raises (k : List ℂ) (P : ℝ) (pol : List ℂ) (w0 : ℝ) (f : LightField) : newBeam k P pol w0 ≠ .ok f := by
  unfold newBeam
  split <;> simp

/-- A waist of zero divides by zero; any other waist gets as far as the wrong call of `super`. -/
theorem C76_beam_errors (k : List ℂ) (P : ℝ) (pol : List ℂ) (w0 : ℝ) :
    (newBeam k P pol w0 = .error .ZeroDivisionError ↔ w0 = 0) ∧ (newBeam k P pol w0 = .error .TypeError ↔ w0 ≠ 0) := by
  unfold newBeam
  split <;> simp [*]

theorem C76_fails : ¬C76_full := by
  rintro ⟨-, h⟩
  obtain ⟨f, h, -⟩ := h [] 1 [1] 1 one_pos one_pos (by unfold vnorm; simp)
  exact C76_beam_raises _ _ _ _ _ h

/-- A light field with unit polarisation. -/
example : vnorm (LightField.pol ⟨[], 3, [0, 0, 1]⟩) = 1 := by unfold vnorm; simp

end AtomTk
