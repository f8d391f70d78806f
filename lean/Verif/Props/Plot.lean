import Verif.Model.Plot
import Verif.Props.Lineshape
import Verif.Proofs.Graph

/-! # C126, C127: the curves of spectra (render/spectra.py:16-108, 139-200) -/

namespace AtomTk

/-! ## C126 -/

/-- The first coordinates of the points go up. -/
def Rising (c : Curve) : Prop := (c.map (·.1)).Pairwise (· < ·)

/-- The line drawn through the points of `c` passes through `(x, y)`: the point is on the segment between two points that follow each
other. -/
def Height (c : Curve) (x y : ℝ) : Prop := ∃ l r p a q b, c = l ++ (p, some a) :: (q, some b) :: r ∧ p ≤ x ∧ x ≤ q ∧
  (y - a) * (q - p) = (b - a) * (x - p)

/-- `x` is left of all points of `c`, the first of which has the height `y`, or right of all, the last having the height `y`. -/
def Beside (c : Curve) (x y : ℝ) : Prop := (∃ p r, c = (p, some y) :: r ∧ x < p) ∨ (∃ p l, c = l ++ [(p, some y)] ∧ p < x)

theorem Rising.tail {p : ℝ × Elt} {c : Curve} (h : Rising (p :: c)) : Rising c := (List.pairwise_cons.1 h).2

theorem Rising.lt {p q : ℝ × Elt} {c : Curve} (h : Rising (p :: c)) (hq : q ∈ c) : p.1 < q.1 :=
  (List.pairwise_cons.1 h).1 _ (List.mem_map.2 ⟨q, hq, rfl⟩)

theorem interp_first {p : ℝ × Elt} {c : Curve} (h : Rising (p :: c)) {x : ℝ} (hx : x ≤ p.1) : interp (p :: c) x = p.2 := by
  cases c with
  | nil => rfl
  | cons q l =>
    have := h.lt (.head _)
    unfold interp
    rw [if_pos ⟨hx, by linarith⟩]

theorem interp_skip {p q : ℝ × Elt} {l : Curve} (h : Rising (p :: q :: l)) {x : ℝ} (hx : q.1 ≤ x) : interp (p :: q :: l) x = interp (q :: l) x := by
  have := h.lt (.head _)
  conv_lhs => unfold interp
  rw [if_neg (fun h => by linarith [h.1]), if_neg (not_lt.2 hx)]

theorem interp_node {c : Curve} (h : Rising c) {p : ℝ × Elt} (hp : p ∈ c) : interp c p.1 = p.2 := by
  induction c with
  | nil => exact absurd hp (by simp)
  | cons m c ih =>
    rcases List.mem_cons.1 hp with rfl | hp
    · exact interp_first h (le_refl _)
    · cases c with
      | nil => exact absurd hp (by simp)
      | cons q l =>
        rw [interp_skip h]
        · exact ih h.tail hp
        · rcases List.mem_cons.1 hp with rfl | hp
          · exact le_refl _
          · exact (h.tail.lt hp).le

theorem interp_height {c : Curve} (h : Rising c) {x y : ℝ} (hh : Height c x y) : interp c x = some y := by
  obtain ⟨l, r, p, a, q, b, rfl, h1, h2, h3⟩ := hh
  induction l with
  | nil =>
    have hlt := h.lt (List.mem_cons_self (a := (q, some b)))
    simp only [List.nil_append] at h hlt ⊢
    rcases eq_or_lt_of_le h1 with rfl | h1'
    · rw [interp_first h (le_refl _)]
      simp only [sub_self, mul_zero, mul_eq_zero, sub_eq_zero] at h3
      rcases h3 with rfl | h3
      · rfl
      · exact absurd h3.symm hlt.ne
    · rcases eq_or_lt_of_le h2 with rfl | h2'
      · rw [interp_skip h (le_refl _), interp_first h.tail (le_refl _)]
        have := mul_right_cancel₀ (sub_ne_zero.2 hlt.ne') h3
        simp only [Option.some.injEq]
        linarith
      · unfold interp
        rw [if_neg (fun h => by linarith [h.1]), if_pos h2']
        simp only [Option.some.injEq]
        have hd : q - p ≠ 0 := sub_ne_zero.2 hlt.ne'
        field_simp
        linarith
  | cons m l ih =>
    have ih := ih h.tail
    cases l with
    | nil => rw [← ih]; exact interp_skip h h1
    | cons n l =>
      rw [← ih]
      refine interp_skip h ?_
      have := h.tail.lt (q := (p, some a)) (by simp)
      exact (this.trans_le h1).le

theorem interp_beside {c : Curve} (h : Rising c) {x y : ℝ} (hh : Beside c x y) : interp c x = some y := by
  rcases hh with ⟨p, r, rfl, hx⟩ | ⟨p, l, rfl, hx⟩
  · exact interp_first h hx.le
  · induction l with
    | nil => rfl
    | cons m l ih =>
      have ih := ih h.tail
      cases l with
      | nil => exact interp_skip h hx.le
      | cons n l =>
        refine (interp_skip h ?_).trans ih
        have := h.tail.lt (q := (p, some y)) (by simp)
        exact (this.trans hx).le

theorem addElt_zero (e : Elt) : addElt (some 0) e = e := by
  cases e with
  | none => rfl
  | some a => simp [addElt]

theorem addElt_comm (a b c : Elt) : addElt (addElt a b) c = addElt (addElt a c) b := by
  cases a <;> cases b <;> cases c <;> simp [addElt]
  ring

theorem fold_sum {cs : List Curve} {vs : List ℝ} {x : ℝ} (h : List.Forall₂ (fun c v => interp c x = some v) cs vs) (y : ℝ) :
    cs.foldl (fun y c => addElt y (interp c x)) (some y) = some (y + vs.sum) := by
  induction h generalizing y with
  | nil => simp
  | cons h _ ih =>
    rw [List.foldl_cons, h, addElt, ih, List.sum_cons, add_assoc]

theorem totalAt_sum {cs : List Curve} {vs : List ℝ} {x : ℝ} (h : List.Forall₂ (fun c v => interp c x = some v) cs vs) :
    totalAt cs x = some vs.sum := by
  unfold totalAt
  rw [fold_sum h, zero_add]

/-- All first coordinates. -/
def nodes (cs : List Curve) : List ℝ := cs.flatMap (·.map (·.1))

theorem totalCurve_ok {cs : List Curve} (hn : ∀ c ∈ cs, c ≠ []) :
    totalCurve cs = .ok (((nodes cs).insertionSort (· ≤ ·)).map fun x => (x, totalAt cs x)) := by
  unfold totalCurve
  rw [if_neg (fun ⟨c, hc, h⟩ => hn c hc h)]
  rfl

/-- C126: the dotted line has the points of all the curves, in order; its height is the sum of the heights of the curves, where a
curve counts beside its window with the height of its end point. -/
theorem C126_sum {cs : List Curve} (hn : ∀ c ∈ cs, c ≠ []) (hr : ∀ c ∈ cs, Rising c) :
    ∃ tot, totalCurve cs = .ok tot ∧ (tot.map (·.1)).Perm (nodes cs) ∧ (tot.map (·.1)).Pairwise (· ≤ ·) ∧
      ∀ p ∈ tot, ∀ vs : List ℝ, List.Forall₂ (fun c v => Height c p.1 v ∨ Beside c p.1 v) cs vs → p.2 = some vs.sum := by
  have e : ∀ l : List ℝ, (l.map fun x => (x, totalAt cs x)).map (·.1) = l := by
    intro l
    rw [List.map_map]
    exact List.map_id l
  refine ⟨_, totalCurve_ok hn, ?_, ?_, ?_⟩
  · rw [e]; exact List.perm_insertionSort _ _
  · rw [e]; exact List.pairwise_insertionSort _ _
  · intro p hp vs hv
    obtain ⟨x, -, rfl⟩ := List.mem_map.1 hp
    refine totalAt_sum ?_
    clear hp hn e
    induction hv with
    | nil => exact .nil
    | cons h _ ih =>
      refine .cons ?_ (ih (fun c hc => hr c (.tail _ hc)))
      rcases h with h | h
      · exact interp_height (hr _ (.head _)) h
      · exact interp_beside (hr _ (.head _)) h

/-- C126: with one transition the dotted line is the curve. -/
theorem C126_single {c : Curve} (hn : c ≠ []) (hr : Rising c) : totalCurve [c] = .ok c := by
  rw [totalCurve_ok (by simpa using hn)]
  have e : nodes [c] = c.map (·.1) := by simp [nodes]
  have hs : (c.map (·.1)).Pairwise (· ≤ ·) := hr.imp (fun h => h.le)
  rw [e, List.Pairwise.insertionSort_eq hs, List.map_map]
  congr 1
  conv_rhs => rw [← List.map_id c]
  refine List.map_congr_left (fun p hp => ?_)
  simp only [Function.comp, totalAt, List.foldl_cons, List.foldl_nil, addElt_zero, interp_node hr hp, id]

/-- C126: the order of the transitions does not matter. -/
theorem C126_order {cs cs' : List Curve} (h : cs.Perm cs') : totalCurve cs = totalCurve cs' := by
  by_cases hn : ∀ c ∈ cs, c ≠ []
  · rw [totalCurve_ok hn, totalCurve_ok (fun c hc => hn c (h.mem_iff.2 hc))]
    have e1 : (nodes cs).insertionSort (· ≤ ·) = (nodes cs').insertionSort (· ≤ ·) := by
      refine List.Perm.eq_of_pairwise' (List.pairwise_insertionSort _ _) (List.pairwise_insertionSort _ _) ?_
      exact (List.perm_insertionSort _ _).trans ((h.flatMap_right _).trans (List.perm_insertionSort _ _).symm)
    have e2 : totalAt cs = totalAt cs' := by
      funext x
      unfold totalAt
      have : RightCommutative (fun (y : Elt) (c : Curve) => addElt y (interp c x)) := ⟨fun a b c => addElt_comm _ _ _⟩
      exact h.foldl_eq _
    rw [e1, e2]
  · push Not at hn
    obtain ⟨c, hc, h0⟩ := hn
    unfold totalCurve
    rw [if_pos ⟨c, hc, h0⟩, if_pos ⟨c, h.mem_iff.1 hc, h0⟩]

theorem interp_nonneg {c : Curve} (hn : c ≠ []) (hr : Rising c) (h : ∀ p ∈ c, ∃ a, p.2 = some a ∧ 0 ≤ a) (x : ℝ) : ∃ a, interp c x = some a ∧ 0 ≤ a := by
  induction c with
  | nil => exact absurd rfl hn
  | cons p c ih =>
    cases c with
    | nil => exact h p (.head _)
    | cons q l =>
      obtain ⟨a, ha, a0⟩ := h p (.head _)
      obtain ⟨b, hb, b0⟩ := h q (.tail _ (.head _))
      have hlt := hr.lt (.head _)
      rcases le_or_gt x p.1 with hx | hx
      · exact ⟨a, by rw [interp_first hr hx, ha], a0⟩
      · rcases le_or_gt q.1 x with hq | hq
        · rw [interp_skip hr hq]
          exact ih (by simp) hr.tail (fun p hp => h p (.tail _ hp))
        · refine ⟨(b - a) / (q.1 - p.1) * (x - p.1) + a, ?_, ?_⟩
          · unfold interp
            rw [if_neg (fun h => by linarith [h.1]), if_pos hq, ha, hb]
          · have hd : 0 < q.1 - p.1 := by linarith
            have e : (b - a) / (q.1 - p.1) * (x - p.1) + a = (b * (x - p.1) + a * (q.1 - x)) / (q.1 - p.1) := by
              field_simp
              ring
            rw [e]
            refine div_nonneg (add_nonneg (mul_nonneg b0 ?_) (mul_nonneg a0 ?_)) hd.le <;> linarith

/-- C126: over curves that are nowhere negative the dotted line never runs below one of them. -/
theorem C126_above {cs : List Curve} (hn : ∀ c ∈ cs, c ≠ []) (hr : ∀ c ∈ cs, Rising c) (h0 : ∀ c ∈ cs, ∀ p ∈ c, ∃ a, p.2 = some a ∧ 0 ≤ a) :
    ∃ tot, totalCurve cs = .ok tot ∧ ∀ c ∈ cs, ∀ x a, (x, some a) ∈ c → ∃ y, (x, some y) ∈ tot ∧ a ≤ y := by
  refine ⟨_, totalCurve_ok hn, ?_⟩
  intro c hc x a hm
  have hall : ∀ cs : List Curve, (∀ c ∈ cs, c ≠ []) → (∀ c ∈ cs, Rising c) → (∀ c ∈ cs, ∀ p ∈ c, ∃ a, p.2 = some a ∧ 0 ≤ a) →
      ∃ vs : List ℝ, List.Forall₂ (fun c v => interp c x = some v) cs vs ∧ (∀ v ∈ vs, 0 ≤ v) ∧
        (∀ c ∈ cs, (x, some a) ∈ c → a ∈ vs) := by
    intro cs
    induction cs with
    | nil => exact fun _ _ _ => ⟨[], .nil, by simp, by simp⟩
    | cons c cs ih =>
      intro hn hr h0
      obtain ⟨vs, h1, h2, h3⟩ := ih (fun c hc => hn c (.tail _ hc)) (fun c hc => hr c (.tail _ hc)) (fun c hc => h0 c (.tail _ hc))
      obtain ⟨b, hb, b0⟩ := interp_nonneg (hn c (.head _)) (hr c (.head _)) (h0 c (.head _)) x
      refine ⟨b :: vs, .cons hb h1, ?_, ?_⟩
      · intro v hv
        rcases List.mem_cons.1 hv with rfl | hv
        · exact b0
        · exact h2 v hv
      · intro c' hc' hm
        rcases List.mem_cons.1 hc' with rfl | hc'
        · have := interp_node (hr c' (.head _)) hm
          simp only [hb, Option.some.injEq] at this
          rw [this]; exact .head _
        · exact .tail _ (h3 c' hc' hm)
  obtain ⟨vs, h1, h2, h3⟩ := hall cs hn hr h0
  refine ⟨vs.sum, ?_, List.single_le_sum h2 a (h3 c hc hm)⟩
  refine List.mem_map.2 ⟨x, ?_, by rw [totalAt_sum h1]⟩
  rw [List.mem_insertionSort]
  exact List.mem_flatMap.2 ⟨c, hc, List.mem_map.2 ⟨_, hm, rfl⟩⟩

/-- A curve without points makes the dotted line raise. -/
theorem C126_empty_raises {cs : List Curve} (h : [] ∈ cs) : totalCurve cs = .error .ValueError := by
  unfold totalCurve
  rw [if_pos ⟨[], h, rfl⟩]

/-- The curves of line shapes: the points are in order if the width is positive. -/
theorem compute_rising {s : LineShape} {x0 : ℝ} {k : Kw} {n : ℕ} (hn : 2 ≤ n) (hw : 0 < s.width k) :
    ∃ xs ys, s.compute x0 n k = .ok (xs, ys) ∧ curveOf (xs, ys) = xs.map (fun x => (x, s.shape x x0 k)) ∧ xs.length = n ∧
      curveOf (xs, ys) ≠ [] ∧ Rising (curveOf (xs, ys)) ∧ Evenly xs (x0 - s.width k) (x0 + s.width k) n := by
  obtain ⟨xs', ys', g1, g2, -⟩ := C66_window_partial s x0 k hn
  have hcomp : s.compute x0 n k = .ok ((List.range n).map (fun i : ℕ => x0 - s.width k + i * ((x0 + s.width k - (x0 - s.width k)) / (n - 1))),
      ((List.range n).map (fun i : ℕ => x0 - s.width k + i * ((x0 + s.width k - (x0 - s.width k)) / (n - 1)))).map fun x => s.shape x x0 k) := by
    unfold LineShape.compute
    rw [linspace_eq hn]
    rfl
  refine ⟨_, _, hcomp, ?_, by simp, ?_, ?_, ?_⟩
  rotate_left 3
  · rw [g1] at hcomp
    rw [← (Prod.mk.inj (Except.ok.inj hcomp)).1]
    exact g2
  · unfold curveOf
    rw [List.zip_map_right, List.zip_eq_zipWith]
    simp [List.zipWith_self]
  · unfold curveOf
    intro h
    have := congrArg List.length h
    simp at this
    omega
  · unfold Rising curveOf
    rw [List.map_fst_zip (by simp), List.pairwise_map]
    refine List.pairwise_lt_range.imp (fun {i j} hij => ?_)
    have h1 : (0 : ℝ) < n - 1 := by
      have : (2 : ℝ) ≤ n := by exact_mod_cast hn
      linarith
    have h2 : (0 : ℝ) < (x0 + s.width k - (x0 - s.width k)) / (n - 1) := div_pos (by linarith) h1
    have h3 : (i : ℝ) < j := by exact_mod_cast hij
    have := mul_lt_mul_of_pos_right h3 h2
    linarith

/-- The curves of a drawing. -/
def Plot.lines (p : Plot) : List Curve := p.curves.map (·.1)

/-- All points of `c` are on one side of `x`. -/
def Outside (c : Curve) (x : ℝ) : Prop := (∀ p ∈ c, x < p.1) ∨ (∀ p ∈ c, p.1 < x)

/-- The full claim: where only one curve is drawn the dotted line is that curve. -/
def C126_full : Prop := ∀ (lines : List PLine) (s : LineShape) (color : PLine → Py (Option ℚ)) (ampl : Option (Dict Str ℝ)) (unit : ℝ) (n : ℕ)
  (p : Plot) (tot : Curve), 2 ≤ n → (∀ k, 0 < s.width k) → plotTransitions lines (.obj s) color ampl unit n true = .ok p → p.total = some tot →
  ∀ l c r, p.lines = l ++ c :: r → ∀ x y v, (x, y) ∈ tot → Height c x v → (∀ c' ∈ l ++ r, Outside c' x) → y = some v

theorem mapM_drawLine {lines : List PLine} {s : LineShape} {color : PLine → Py (Option ℚ)} {ampl : Option (Dict Str ℝ)} {unit : ℝ} {n : ℕ}
    (hn : 2 ≤ n) (hw : ∀ k, 0 < s.width k) {cs : List (Curve × Option ℚ)} (h : lines.mapM (drawLine (.obj s) color ampl unit n) = .ok cs) :
    List.Forall₂ (fun t c => ∃ a, amplOf ampl t = .ok a ∧ color t = .ok c.2 ∧ Rising c.1 ∧ c.1 ≠ [] ∧
      ∃ xs, Evenly xs (t.freq / unit - s.width { ampl := some a }) (t.freq / unit + s.width { ampl := some a }) n ∧
        c.1 = xs.map fun x => (x, s.shape x (t.freq / unit) { ampl := some a })) lines cs := by
  induction lines generalizing cs with
  | nil =>
    simp only [List.mapM_nil] at h
    cases h
    exact .nil
  | cons t l ih =>
    rw [List.mapM_cons] at h
    unfold drawLine at h
    cases ha : amplOf ampl t with
    | error e => rw [ha] at h; exact absurd h (by simp [bind, Except.bind])
    | ok a =>
      obtain ⟨xs, ys, h1, h2, h3, h4, h5, h6⟩ := compute_rising (s := s) (x0 := t.freq / unit) (k := { ampl := some a }) hn (hw _)
      rw [ha] at h
      simp only [ShapeArg.compute, h1, bind, Except.bind] at h
      cases hc : color t with
      | error e => rw [hc] at h; exact absurd h (by simp)
      | ok c =>
        rw [hc] at h
        simp only at h
        cases hr : l.mapM (drawLine (.obj s) color ampl unit n) with
        | error e =>
          unfold drawLine at hr
          simp only [ShapeArg.compute, bind, Except.bind] at hr
          rw [hr] at h; exact absurd h (by simp)
        | ok r =>
          have ih := ih hr
          unfold drawLine at hr
          simp only [ShapeArg.compute, bind, Except.bind] at hr
          rw [hr] at h
          simp only [pure, Except.pure, Except.ok.injEq] at h
          subst h
          exact .cons ⟨a, ha, hc, h5, h4, xs, h6, h2⟩ ih

theorem forall2_mem_right' {α β : Type _} {R : α → β → Prop} {l : List α} {m : List β} (h : List.Forall₂ R l m) {b : β} (hb : b ∈ m) :
    ∃ a ∈ l, R a b := by
  induction h with
  | nil => exact absurd hb (by simp)
  | cons h _ ih =>
    rcases List.mem_cons.1 hb with rfl | hb
    · exact ⟨_, .head _, h⟩
    · obtain ⟨a, ha, hr⟩ := ih hb
      exact ⟨a, .tail _ ha, hr⟩

/-- C126 where all curves are drawn: there the dotted line is the sum of the drawn curves.  Missing: places where some curve is not
drawn; there it counts with the height of its end point (`C126_sum`, `C126_fails`). -/
theorem C126_inside_partial {lines : List PLine} {s : LineShape} {color : PLine → Py (Option ℚ)} {ampl : Option (Dict Str ℝ)} {unit : ℝ} {n : ℕ}
    {p : Plot} {tot : Curve} (hn : 2 ≤ n) (hw : ∀ k, 0 < s.width k) (h : plotTransitions lines (.obj s) color ampl unit n true = .ok p)
    (ht : p.total = some tot) : p.lines.length = lines.length ∧ (tot.map (·.1)).Perm (nodes p.lines) ∧
      ∀ x y, (x, y) ∈ tot → ∀ vs, List.Forall₂ (fun c v => Height c x v) p.lines vs → y = some vs.sum := by
  unfold plotTransitions at h
  cases hm : lines.mapM (drawLine (.obj s) color ampl unit n) with
  | error e => rw [hm] at h; exact absurd h (by simp [bind, Except.bind])
  | ok cs =>
    rw [hm] at h
    have hf := mapM_drawLine hn hw hm
    have hall : ∀ c ∈ cs.map (·.1), Rising c ∧ c ≠ [] := by
      intro c hc
      obtain ⟨d, hd, rfl⟩ := List.mem_map.1 hc
      obtain ⟨t, -, a, -, -, h1, h2, -⟩ := forall2_mem_right' hf hd
      exact ⟨h1, h2⟩
    obtain ⟨tot', h1, h2, -, h3⟩ := C126_sum (fun c hc => (hall c hc).2) (fun c hc => (hall c hc).1)
    simp only [bind, Except.bind, if_true, h1, Except.ok.injEq] at h
    subst h
    simp only [Option.some.injEq] at ht
    subst ht
    refine ⟨?_, h2, ?_⟩
    · simp only [Plot.lines, List.length_map]
      exact hf.length_eq.symm
    · intro x y hp vs hv
      exact h3 (x, y) hp vs (hv.imp (fun _ _ h => .inl h))

/-- A transition of the given frequency. -/
def plainLine (f : ℝ) : PLine := ⟨.fine, [], f, 1, none, none, none, none⟩

/-- A line shape of width 1 and height 1. -/
noncomputable def flatShape : LineShape where
  width _ := 1
  shape _ _ _ := some 1

theorem flat_compute (x0 : ℝ) (k : Kw) : flatShape.compute x0 2 k = .ok ([x0 - 1, x0 + 1], [some 1, some 1]) := by
  unfold LineShape.compute
  rw [show (2 : ℤ) = ((2 : ℕ) : ℤ) from rfl, linspace_eq (le_refl 2)]
  simp only [flatShape, List.range_succ, List.range_zero, List.nil_append, List.cons_append, List.map_cons, List.map_nil, Nat.cast_zero,
    Nat.cast_one, bind, Except.bind, Except.ok.injEq, Prod.mk.injEq, List.cons.injEq, and_true]
  constructor <;> norm_num
  ring

/-- C126 fails: two lines at 0 and 10 in windows of half width 1; at -1 only the first is drawn, of height 1, but the dotted line has
the height 2. -/
theorem C126_fails : ¬C126_full := by
  intro h
  have hr : plotTransitions [plainLine 0, plainLine 10] (.obj flatShape) (fun _ => .ok none) none 1 ((2 : ℕ) : ℤ) true = .ok
      ⟨[([(-1, some 1), (1, some 1)], none), ([(9, some 1), (11, some 1)], none)],
        some (((nodes [[(-1, some 1), (1, some 1)], [(9, some 1), (11, some 1)]]).insertionSort (· ≤ ·)).map fun x =>
          (x, totalAt [[(-1, some 1), (1, some 1)], [(9, some 1), (11, some 1)]] x))⟩ := by
    unfold plotTransitions
    have e : ∀ f : ℝ, drawLine (.obj flatShape) (fun _ => .ok none) none 1 ((2 : ℕ) : ℤ) (plainLine f) =
        .ok ([(f - 1, some 1), (f + 1, some 1)], none) := by
      intro f
      unfold drawLine
      simp only [amplOf, ShapeArg.compute, plainLine, div_one, bind, Except.bind]
      rw [show ((2 : ℕ) : ℤ) = 2 from rfl, flat_compute]
      rfl
    simp only [List.mapM_cons, List.mapM_nil, e, bind, Except.bind, pure, Except.pure, List.map_cons, List.map_nil, if_true]
    norm_num only
    rw [totalCurve_ok (by simp)]
  have := h _ _ _ _ _ 2 _ _ (le_refl _) (fun _ => one_pos) hr rfl [] [(-1, some 1), (1, some 1)] [[(9, some 1), (11, some 1)]] rfl
    (-1) (totalAt [[(-1, some 1), (1, some 1)], [(9, some 1), (11, some 1)]] (-1)) 1
    (List.mem_map.2 ⟨-1, by rw [List.mem_insertionSort]; simp [nodes], rfl⟩)
    ⟨[], [], -1, 1, 1, 1, rfl, le_refl _, by norm_num, by norm_num⟩
    (by
      intro c hc
      simp only [List.nil_append, List.mem_singleton] at hc
      subst hc
      refine .inl ?_
      intro p hp
      simp only [List.mem_cons, List.not_mem_nil, or_false] at hp
      rcases hp with rfl | rfl <;> norm_num)
  have v1 : interp [(-1, some 1), (1, some 1)] (-1) = some 1 :=
    interp_height (by norm_num [Rising]) ⟨[], [], -1, 1, 1, 1, rfl, le_refl _, by norm_num, by norm_num⟩
  have v2 : interp [(9, some 1), (11, some 1)] (-1) = some 1 :=
    interp_beside (by norm_num [Rising]) (.inl ⟨9, _, rfl, by norm_num⟩)
  rw [totalAt_sum (vs := [1, 1]) (.cons v1 (.cons v2 .nil))] at this
  norm_num at this

/-- Two curves that overlap. -/
example : Rising [(-1, some 1), (1, some 2)] ∧ Rising [(0, some 3), (2, some 1)] ∧ Height [(-1, some 1), (1, some 2)] 0 (3/2) ∧
    Height [(0, some 3), (2, some 1)] 0 3 :=
  ⟨by norm_num [Rising], by norm_num [Rising], ⟨[], [], -1, 1, 1, 2, rfl, by norm_num, by norm_num, by norm_num⟩,
    ⟨[], [], 0, 3, 2, 1, rfl, by norm_num, by norm_num, by norm_num⟩⟩

/-! ## C127 -/

/-- The amplitude a line should have: its relative strength, times the entry of the dictionary if there is one. -/
def Amplitude (ampl : Option (Dict Str ℝ)) (t : PLine) (a : ℝ) : Prop :=
  match ampl with
  | none => a = t.rel
  | some d => ∃ b, d.get? t.name = some b ∧ a = t.rel * b

/-- Every line of `ls` is drawn, in this order, with 1000 evenly spaced points on the shape `s` around its frequency in GHz. -/
def DrawsAll (ls : List PLine) (s : LineShape) (ampl : Option (Dict Str ℝ)) (r : Py Plot) : Prop :=
  ∃ p, r = .ok p ∧ List.Forall₂ (fun t c => ∃ a xs, Amplitude ampl t a ∧
    Evenly xs (t.freq / 1000000000 - s.width { ampl := some a }) (t.freq / 1000000000 + s.width { ampl := some a }) 1000 ∧
    c.1 = xs.map fun x => (x, s.shape x (t.freq / 1000000000) { ampl := some a })) ls p.curves ∧ totalCurve p.lines = .ok (p.total.getD [])

theorem amplOf_ok {ampl : Option (Dict Str ℝ)} {t : PLine} {a : ℝ} (h : amplOf ampl t = .ok a) : Amplitude ampl t a := by
  unfold amplOf at h
  cases ampl with
  | none => exact (Except.ok.inj h).symm
  | some d =>
    simp only [bind, Except.bind] at h
    cases hd : d.get? t.name with
    | none => rw [Dict.getE_err hd] at h; exact absurd h (by simp)
    | some b =>
      rw [Dict.getE_ok.2 hd] at h
      exact ⟨b, hd, (Except.ok.inj h).symm⟩

theorem drawLines_ok {lines : List PLine} {s : LineShape} {color : PLine → Py (Option ℚ)} {ampl : Option (Dict Str ℝ)} {unit : ℝ} {n : ℕ}
    (hn : 2 ≤ n) (hw : ∀ k, 0 < s.width k) (ha : ∀ t ∈ lines, ∃ a, amplOf ampl t = .ok a) (hc : ∀ t ∈ lines, ∃ c, color t = .ok c) :
    ∃ cs, lines.mapM (drawLine (.obj s) color ampl unit n) = .ok cs := by
  induction lines with
  | nil => exact ⟨[], rfl⟩
  | cons t l ih =>
    obtain ⟨cs, hcs⟩ := ih (fun t ht => ha t (.tail _ ht)) (fun t ht => hc t (.tail _ ht))
    obtain ⟨a, ha⟩ := ha t (.head _)
    obtain ⟨c, hc⟩ := hc t (.head _)
    obtain ⟨xs, ys, h1, -⟩ := compute_rising (s := s) (x0 := t.freq / unit) (k := { ampl := some a }) hn (hw _)
    have hd : drawLine (.obj s) color ampl unit n t = .ok (curveOf (xs, ys), c) := by
      unfold drawLine
      rw [ha]
      simp only [ShapeArg.compute, h1, bind, Except.bind, hc]
    rw [List.mapM_cons, hd, hcs]
    exact ⟨_, rfl⟩

theorem plot_ok {lines : List PLine} {s : LineShape} {color : PLine → Py (Option ℚ)} {ampl : Option (Dict Str ℝ)}
    (hw : ∀ k, 0 < s.width k) (ha : ∀ t ∈ lines, ∃ a, amplOf ampl t = .ok a) (hc : ∀ t ∈ lines, ∃ c, color t = .ok c) :
    DrawsAll lines s ampl (plotTransitions lines (.obj s) color ampl gHz dfltPoints true) := by
  have hn : (2 : ℕ) ≤ 1000 := by norm_num
  obtain ⟨cs, hm⟩ := drawLines_ok (unit := gHz) hn hw ha hc
  have hf := mapM_drawLine hn hw hm
  have hne : ∀ c ∈ cs.map (·.1), c ≠ [] := by
    intro c hc
    obtain ⟨d, hd, rfl⟩ := List.mem_map.1 hc
    obtain ⟨t, -, a, -, -, -, h2, -⟩ := forall2_mem_right' hf hd
    exact h2
  have ht := totalCurve_ok hne
  refine ⟨⟨cs, some (((nodes (cs.map (·.1))).insertionSort (· ≤ ·)).map fun x => (x, totalAt (cs.map (·.1)) x))⟩, ?_, ?_, ?_⟩
  · unfold plotTransitions dfltPoints
    rw [show (1000 : ℤ) = ((1000 : ℕ) : ℤ) from rfl, hm]
    simp only [bind, Except.bind, if_true, ht]
  · refine hf.imp ?_
    rintro t c ⟨a, h1, -, -, -, xs, h3, h4⟩
    exact ⟨a, xs, amplOf_ok h1, h3, h4⟩
  · exact ht

theorem tableColor_ok {lines : List PLine} {color shade : PLine → Py ℚ} (hc : ∀ t ∈ lines, ∃ q, color t = .ok q) (hs : ∀ t ∈ lines, ∃ q, shade t = .ok q) :
    ∃ f, tableColor lines color shade = .ok f ∧ ∀ t ∈ lines, ∃ q, f t = .ok q := by
  have key : ∀ l : List PLine, (∀ t ∈ l, ∃ q, color t = .ok q) → (∀ t ∈ l, ∃ q, shade t = .ok q) →
      ∃ ps, (l.mapM fun t => do
        let c ← color t
        let s ← shade t
        (.ok (c, s) : Py (ℚ × ℚ))) = .ok ps ∧ ∀ t ∈ l, ∃ c s, color t = .ok c ∧ shade t = .ok s ∧ (c, s) ∈ ps := by
    intro l
    induction l with
    | nil => exact fun _ _ => ⟨[], rfl, by simp⟩
    | cons t l ih =>
      intro hc hs
      obtain ⟨ps, h1, h2⟩ := ih (fun t ht => hc t (.tail _ ht)) (fun t ht => hs t (.tail _ ht))
      obtain ⟨c, hc⟩ := hc t (.head _)
      obtain ⟨s, hs⟩ := hs t (.head _)
      refine ⟨(c, s) :: ps, ?_, ?_⟩
      · rw [List.mapM_cons, h1, hc, hs]
        rfl
      · intro u hu
        rcases List.mem_cons.1 hu with rfl | hu
        · exact ⟨c, s, hc, hs, .head _⟩
        · obtain ⟨c', s', a, b, m⟩ := h2 u hu
          exact ⟨c', s', a, b, .tail _ m⟩
  obtain ⟨ps, h1, h2⟩ := key lines hc hs
  unfold tableColor
  rw [h1]
  refine ⟨_, rfl, ?_⟩
  intro t ht
  obtain ⟨c, s, a, b, m⟩ := h2 t ht
  have : ∃ q, lightness ps c s = .ok q := by
    unfold lightness
    have : ((ps.filter (·.1 = c)).map (·.2)) ≠ [] := by
      intro h
      have : (c, s) ∈ ps.filter (·.1 = c) := List.mem_filter.2 ⟨m, by simp⟩
      rw [List.map_eq_nil_iff] at h
      rw [h] at this
      exact absurd this (by simp)
    cases hl : (ps.filter (·.1 = c)).map (·.2) with
    | nil => exact absurd hl this
    | cons x l => exact ⟨_, rfl⟩
  obtain ⟨q, hq⟩ := this
  refine ⟨some q, ?_⟩
  simp only [a, b, bind, Except.bind, hq]

/-- The lines are of the class `k` and have the numbers of that class. -/
def Uniform (k : Kind) (ls : List PLine) : Prop := ∀ t ∈ ls, t.kind = k ∧
  match k with
  | .fine => True
  | .hyp => t.lowF ≠ none ∧ t.upF ≠ none
  | .zee => t.lowM ≠ none ∧ t.upM ≠ none

/-- The colouring is one that is offered for the class. -/
def Offered : Kind → Coloring → Prop
  | .fine, _ => True
  | .hyp, c => c = .l ∨ c = .u
  | .zee, c => c ≠ .other

theorem needNum_ok {x : Option ℚ} (h : x ≠ none) : ∃ q, needNum x = .ok q := by
  cases x with
  | none => exact absurd rfl h
  | some q => exact ⟨q, rfl⟩

theorem hypColor_ok {ls : List PLine} (h : Uniform .hyp ls) {c : Coloring} (ho : Offered .hyp c) :
    ∃ f, hypColor ls c = .ok f ∧ ∀ t ∈ ls, ∃ q, f t = .ok q := by
  rcases ho with rfl | rfl
  · exact tableColor_ok (fun t ht => needNum_ok (h t ht).2.1) (fun t ht => needNum_ok (h t ht).2.2)
  · exact tableColor_ok (fun t ht => needNum_ok (h t ht).2.2) (fun t ht => needNum_ok (h t ht).2.1)

theorem zeeColor_ok {ls : List PLine} (h : Uniform .zee ls) {c : Coloring} (ho : Offered .zee c) :
    ∃ f, zeeColor ls c = .ok f ∧ ∀ t ∈ ls, ∃ q, f t = .ok q := by
  have h1 : ∀ t ∈ ls, ∃ q, needNum t.lowM = .ok q := fun t ht => needNum_ok (h t ht).2.1
  have h2 : ∀ t ∈ ls, ∃ q, needNum t.upM = .ok q := fun t ht => needNum_ok (h t ht).2.2
  cases c with
  | l => exact tableColor_ok h1 h2
  | u => exact tableColor_ok h2 h1
  | type =>
    refine tableColor_ok (fun t ht => ?_) h1
    obtain ⟨a, ha⟩ := h1 t ht
    obtain ⟨b, hb⟩ := h2 t ht
    exact ⟨b - a, by unfold deltaM; rw [ha, hb]; rfl⟩
  | other => exact absurd rfl ho

theorem kindColor_ok {k : Kind} {ls : List PLine} (h : Uniform k ls) {c : Coloring} (ho : Offered k c) :
    ∃ f, kindColor ls c k = .ok f ∧ ∀ t ∈ ls, ∃ q, f t = .ok q := by
  cases k with
  | fine => exact ⟨_, rfl, fun _ _ => ⟨_, rfl⟩⟩
  | hyp => exact hypColor_ok h ho
  | zee => exact zeeColor_ok h ho

/-- The lines all have an entry in the dictionary of amplitudes, if there is one. -/
def HasAmplitudes (ampl : Option (Dict Str ℝ)) (ls : List PLine) : Prop := ∀ d, ampl = some d → ∀ t ∈ ls, ∃ b, d.get? t.name = some b

theorem HasAmplitudes.ok {ampl : Option (Dict Str ℝ)} {ls : List PLine} (h : HasAmplitudes ampl ls) : ∀ t ∈ ls, ∃ a, amplOf ampl t = .ok a := by
  intro t ht
  unfold amplOf
  cases ampl with
  | none => exact ⟨_, rfl⟩
  | some d =>
    obtain ⟨b, hb⟩ := h d rfl t ht
    simp only [Dict.getE_ok.2 hb, bind, Except.bind]
    exact ⟨_, rfl⟩

/-- C127 for `plot_spectrum` of a list of transitions of one class with an object as line shape. -/
theorem C127_list_partial {k : Kind} {ls : List PLine} {c : Coloring} {s : LineShape} {temp : Option ℚ} {cold : ShapeArg} {thermal : Option ShapeArg}
    {ampl : Option (Dict Str ℝ)} (hne : ls ≠ []) (hu : Uniform k ls) (ho : Offered k c) (ha : HasAmplitudes ampl ls) (hw : ∀ k, 0 < s.width k) :
    DrawsAll ls s ampl (plotSpectrum (.list ls) (some (.obj s)) c temp cold thermal ampl) := by
  cases ls with
  | nil => exact absurd rfl hne
  | cons t l =>
    obtain ⟨f, h1, h2⟩ := kindColor_ok hu ho
    have hk := (hu t (.head _)).1
    have e : plotSpectrum (.list (t :: l)) (some (.obj s)) c temp cold thermal ampl =
        plotTransitions (t :: l) (.obj s) f ampl gHz dfltPoints true := by
      unfold plotSpectrum
      simp only [specShape, SpecArg.lines, bind, Except.bind, hk, h1]
    rw [e]
    exact plot_ok hw ha.ok h2

/-- C127 for `plot_hyperfine_spectrum` with an object as line shape. -/
theorem C127_hyperfine_partial {k : Kind} {x : List (List PLine)} {c : Option Coloring} {s : LineShape} {ampl : Option (Dict Str ℝ)}
    (hne : x.flatten ≠ []) (hu : Uniform k x.flatten) (ho : Offered k (c.getD .l)) (ha : HasAmplitudes ampl x.flatten) (hw : ∀ k, 0 < s.width k) :
    DrawsAll x.flatten s ampl (plotHyperfine x (some (.obj s)) c ampl) := C127_list_partial hne hu ho ha hw

/-- The lines a call of `plot_zeeman_spectrum` is about: the Zeeman transitions of a hyperfine transition; those of all hyperfine transitions of
a transition; what the transitions of a list have one step below. -/
def ZeeArg.given : ZeeArg → List PLine
  | .hyp ls => ls
  | .fine ls => ls.flatten
  | .list ls => ls.flatten

theorem ZeeArg.lines_given (x : ZeeArg) : x.lines = x.given := by cases x <;> rfl

/-- C127 for `plot_zeeman_spectrum` with an object as line shape.  Missing for all three: calls without a line shape
(`C127_default_raises`), one transition given to `plot_spectrum` (`C127_one_raises`), a list of transitions with hyperfine
structure given to `plot_zeeman_spectrum` (`C127_list_raises`). -/
theorem C127_zeeman_partial {x : ZeeArg} {c : Option Coloring} {s : LineShape} {ampl : Option (Dict Str ℝ)}
    (hu : Uniform .zee x.given) (ho : Offered .zee (c.getD .type)) (ha : HasAmplitudes ampl x.given) (hw : ∀ k, 0 < s.width k) :
    DrawsAll x.given s ampl (plotZeeman x (some (.obj s)) c ampl) := by
  rw [← x.lines_given] at hu ha ⊢
  obtain ⟨f, h1, h2⟩ := zeeColor_ok hu ho
  have e : zeeColor' x.lines (c.getD .type) = .ok f := by
    unfold zeeColor'
    split
    · rename_i h; exact absurd h ho
    · exact h1
  unfold plotZeeman
  rw [e]
  exact plot_ok hw ha.ok h2

theorem plot_cls {ls : List PLine} (hne : ls ≠ []) {color : PLine → Py (Option ℚ)} {unit : ℝ} {n : ℤ} {b : Bool} (ampl : Option (Dict Str ℝ)) (p : Plot) :
    plotTransitions ls .cls color ampl unit n b ≠ .ok p := by
  cases ls with
  | nil => exact absurd rfl hne
  | cons t l =>
    unfold plotTransitions
    rw [List.mapM_cons]
    unfold drawLine
    cases h : amplOf ampl t with
    | error e => simp [bind, Except.bind]
    | ok a => simp [bind, Except.bind, ShapeArg.compute]

/-- Without a line shape the two front ends take the class itself and draw no line. -/
theorem C127_default_raises (x : List (List PLine)) (z : ZeeArg) (c : Option Coloring) (ampl : Option (Dict Str ℝ)) (hx : x.flatten ≠ [])
    (hz : z.given ≠ []) (p : Plot) : plotHyperfine x none c ampl ≠ .ok p ∧ plotZeeman z none c ampl ≠ .ok p := by
  constructor
  · unfold plotHyperfine plotSpectrum
    simp only [specShape, Option.getD_none, SpecArg.lines, bind, Except.bind]
    cases hl : x.flatten with
    | nil => exact absurd hl hx
    | cons t l =>
      simp only
      cases kindColor (t :: l) (c.getD .l) t.kind with
      | error e => simp
      | ok f => exact plot_cls (by simp) ampl p
  · rw [← z.lines_given] at hz
    unfold plotZeeman
    simp only [Option.getD_none, bind, Except.bind]
    cases zeeColor' z.lines (c.getD .type) with
    | error e => simp
    | ok f => exact plot_cls hz ampl p

/-- `plot_spectrum` of one transition draws nothing. -/
theorem C127_one_raises (ls : List PLine) (s : Option ShapeArg) (c : Coloring) (temp : Option ℚ) (cold : ShapeArg) (thermal : Option ShapeArg)
    (ampl : Option (Dict Str ℝ)) (p : Plot) : plotSpectrum (.one ls) s c temp cold thermal ampl ≠ .ok p := by
  unfold plotSpectrum
  cases specShape s temp cold thermal with
  | error e => simp [bind, Except.bind]
  | ok s =>
    simp only [SpecArg.lines, bind, Except.bind]
    cases ls with
    | nil => simp
    | cons t l => cases h : t.kind <;> simp [h]

/-- `plot_zeeman_spectrum` of a list of transitions, the subtransitions of which are hyperfine transitions, raises. -/
theorem C127_list_raises {x : List (List PLine)} (hne : x.flatten ≠ []) (hx : ∀ t ∈ x.flatten, t.lowM = none ∧ t.upM = none) {c : Option Coloring}
    (hc : c ≠ some .other) (s : Option ShapeArg) (ampl : Option (Dict Str ℝ)) : plotZeeman (.list x) s c ampl = .error .TypeError := by
  have key : ∀ color shade : PLine → Py ℚ, (∀ t ∈ x.flatten, color t = .error .TypeError) → tableColor x.flatten color shade = .error .TypeError := by
    intro color shade h
    unfold tableColor
    cases hl : x.flatten with
    | nil => exact absurd hl hne
    | cons t l =>
      rw [List.mapM_cons, h t (by rw [hl]; exact .head _)]
      rfl
  have h1 : ∀ t ∈ x.flatten, needNum t.lowM = .error .TypeError := fun t ht => by rw [(hx t ht).1]; rfl
  have h2 : ∀ t ∈ x.flatten, needNum t.upM = .error .TypeError := fun t ht => by rw [(hx t ht).2]; rfl
  have h3 : ∀ t ∈ x.flatten, deltaM t = .error .TypeError := fun t ht => by unfold deltaM; rw [h2 t ht]; rfl
  have hz : zeeColor' x.flatten (c.getD .type) = .error .TypeError := by
    cases hcc : c.getD .type with
    | l => exact key _ _ h1
    | u => exact key _ _ h2
    | type => exact key _ _ h3
    | other =>
      cases c with
      | none => exact absurd hcc (by simp)
      | some c => exact absurd (congrArg some hcc) hc
  unfold plotZeeman
  simp only [ZeeArg.lines, hz, bind, Except.bind]

theorem plot_raises {t : PLine} {l : List PLine} {s : ShapeArg} {color : PLine → Py (Option ℚ)} {ampl : Option (Dict Str ℝ)} {e : PyErr}
    (h : drawLine s color ampl gHz dfltPoints t = .error e) : plotTransitions (t :: l) s color ampl gHz dfltPoints true = .error e := by
  unfold plotTransitions
  rw [List.mapM_cons, h]
  rfl

/-- C127: without a line shape the exception is a `TypeError` where everything else is in order. -/
theorem C127_default_error {x : List (List PLine)} {z : ZeeArg} {k : Kind} {c c' : Option Coloring} {ampl : Option (Dict Str ℝ)} (hx : x.flatten ≠ [])
    (hz : z.lines ≠ []) (hu : Uniform k x.flatten) (ho : Offered k (c.getD .l)) (hu' : Uniform .zee z.lines) (ho' : Offered .zee (c'.getD .type))
    (ha : HasAmplitudes ampl x.flatten) (ha' : HasAmplitudes ampl z.lines) :
    plotHyperfine x none c ampl = .error .TypeError ∧ plotZeeman z none c' ampl = .error .TypeError := by
  have key : ∀ {t : PLine} {l : List PLine} {f}, HasAmplitudes ampl (t :: l) →
      plotTransitions (t :: l) .cls f ampl gHz dfltPoints true = .error .TypeError := by
    intro t l f h
    obtain ⟨a, ha⟩ := h.ok t (.head _)
    refine plot_raises ?_
    unfold drawLine
    rw [ha]
    rfl
  constructor
  · cases hl : x.flatten with
    | nil => exact absurd hl hx
    | cons t l =>
      rw [hl] at hu ha
      obtain ⟨f, h1, -⟩ := kindColor_ok hu ho
      have hk := (hu t (.head _)).1
      unfold plotHyperfine plotSpectrum
      simp only [specShape, Option.getD_none, SpecArg.lines, bind, Except.bind, hl, hk, h1]
      exact key ha
  · obtain ⟨f, h1, -⟩ := zeeColor_ok hu' ho'
    have e : zeeColor' z.lines (c'.getD .type) = .ok f := by
      unfold zeeColor'
      split
      · rename_i h; exact absurd h ho'
      · exact h1
    unfold plotZeeman
    simp only [Option.getD_none, bind, Except.bind, e]
    cases hl : z.lines with
    | nil => exact absurd hl hz
    | cons t l =>
      rw [hl] at ha'
      exact key ha'

/-- C127: a colouring that is not offered raises: `NameError` in `plot_spectrum` and `plot_hyperfine_spectrum`, `TypeError` in
`plot_zeeman_spectrum`. -/
theorem C127_colouring_raises {s : LineShape} (hw : ∀ k, 0 < s.width k) {ampl : Option (Dict Str ℝ)} :
    (∀ (k : Kind) (ls : List PLine) (c : Coloring) temp cold thermal, ls ≠ [] → Uniform k ls → ¬Offered k c → HasAmplitudes ampl ls →
      plotSpectrum (.list ls) (some (.obj s)) c temp cold thermal ampl = .error .NameError) ∧
    (∀ (x : List (List PLine)) (c : Coloring), x.flatten ≠ [] → Uniform .hyp x.flatten → ¬Offered .hyp c → HasAmplitudes ampl x.flatten →
      plotHyperfine x (some (.obj s)) (some c) ampl = .error .NameError) ∧
    ∀ (z : ZeeArg) (c : Coloring), z.lines ≠ [] → ¬Offered .zee c → HasAmplitudes ampl z.lines →
      plotZeeman z (some (.obj s)) (some c) ampl = .error .TypeError := by
  have key : ∀ {t : PLine} {l : List PLine} {f : PLine → Py (Option ℚ)} {e : PyErr}, HasAmplitudes ampl (t :: l) → f t = .error e →
      plotTransitions (t :: l) (.obj s) f ampl gHz dfltPoints true = .error e := by
    intro t l f e h he
    obtain ⟨a, ha⟩ := h.ok t (.head _)
    refine plot_raises ?_
    obtain ⟨xs, ys, h1, -⟩ := compute_rising (s := s) (x0 := t.freq / gHz) (k := { ampl := some a }) (n := 1000) (by norm_num) (hw _)
    unfold drawLine
    rw [ha]
    simp only [bind, Except.bind, ShapeArg.compute]
    rw [show dfltPoints = ((1000 : ℕ) : ℤ) from rfl, h1]
    simp only [he]
  have main : ∀ (k : Kind) (ls : List PLine) (c : Coloring) temp cold thermal, ls ≠ [] → Uniform k ls → ¬Offered k c → HasAmplitudes ampl ls →
      plotSpectrum (.list ls) (some (.obj s)) c temp cold thermal ampl = .error .NameError := by
    intro k ls c temp cold thermal hne hu ho ha
    cases ls with
    | nil => exact absurd rfl hne
    | cons t l =>
      have hk := (hu t (.head _)).1
      have hc : kindColor (t :: l) c k = .ok fun _ => .error .NameError := by
        cases k with
        | fine => exact absurd trivial ho
        | hyp => cases c with
          | l => exact absurd (.inl rfl) ho
          | u => exact absurd (.inr rfl) ho
          | type => rfl
          | other => rfl
        | zee => cases c with
          | other => rfl
          | l => exact absurd (by decide : Coloring.l ≠ .other) ho
          | u => exact absurd (by decide : Coloring.u ≠ .other) ho
          | type => exact absurd (by decide : Coloring.type ≠ .other) ho
      unfold plotSpectrum
      simp only [specShape, SpecArg.lines, bind, Except.bind, hk, hc]
      exact key ha rfl
  refine ⟨main, ?_, ?_⟩
  · intro x c hne hu ho ha
    exact main .hyp x.flatten c none .cls none hne hu ho ha
  · intro z c hne ho ha
    have hc : c = .other := by
      by_contra h
      exact ho h
    subst hc
    unfold plotZeeman
    simp only [Option.getD_some, zeeColor', bind, Except.bind]
    cases hl : z.lines with
    | nil => exact absurd hl hne
    | cons t l =>
      rw [hl] at ha
      exact key ha rfl

/-- C127: without a line shape `plot_spectrum` takes the unbroadened one at temperature zero and otherwise the thermal one, which
needs a mass; without a temperature it raises. -/
theorem C127_temperature (x : SpecArg) (c : Coloring) (cold : ShapeArg) (thermal : Option ShapeArg) (ampl : Option (Dict Str ℝ)) :
    plotSpectrum x none c (some 0) cold thermal ampl = plotSpectrum x (some cold) c none cold thermal ampl ∧
    (∀ t s, t ≠ 0 → plotSpectrum x none c (some t) cold (some s) ampl = plotSpectrum x (some s) c none cold thermal ampl) ∧
    (∀ t, t ≠ 0 → plotSpectrum x none c (some t) cold none ampl = .error .AssertionError) ∧
    plotSpectrum x none c none cold thermal ampl = .error .AttributeError := by
  refine ⟨?_, fun t s ht => ?_, fun t ht => ?_, ?_⟩
  · unfold plotSpectrum specShape; simp
  · unfold plotSpectrum specShape; simp [ht]
  · unfold plotSpectrum specShape; simp [ht, bind, Except.bind]
  · unfold plotSpectrum specShape; simp [bind, Except.bind]

/-- C127: without any line `plot_spectrum` with a line shape and `plot_hyperfine_spectrum` raise IndexError. -/
theorem C127_empty_raises (x : SpecArg) (hx : x.lines = []) (s : ShapeArg) (c : Coloring) (temp : Option ℚ) (cold : ShapeArg)
    (thermal : Option ShapeArg) (ampl : Option (Dict Str ℝ)) (y : List (List PLine)) (hy : y.flatten = []) (s' : Option ShapeArg) (c' : Option Coloring) :
    plotSpectrum x (some s) c temp cold thermal ampl = .error .IndexError ∧ plotHyperfine y s' c' ampl = .error .IndexError := by
  constructor
  · unfold plotSpectrum specShape
    simp [hx, bind, Except.bind]
  · unfold plotHyperfine plotSpectrum specShape
    simp [hy, SpecArg.lines, bind, Except.bind]

/-- A transition without lines. -/
example : (SpecArg.one []).lines = [] ∧ ([[], []] : List (List PLine)).flatten = [] := ⟨rfl, rfl⟩

/-- The full claim: the two front ends with their defaults, and `plot_spectrum` of one transition, draw a curve for each line. -/
def C127_full : Prop := ∀ (ls : List PLine), ls ≠ [] → Uniform .hyp ls →
  (∃ p, plotHyperfine [ls] none none none = .ok p ∧ p.curves.length = ls.length) ∧
    ∀ s : LineShape, (∀ k, 0 < s.width k) →
      ∃ p, plotSpectrum (.one ls) (some (.obj s)) .l none .cls none none = .ok p ∧ p.curves.length = ls.length

/-- A hyperfine line. -/
def hypLine : PLine := ⟨.hyp, [], 500, 1, some 1, some 2, none, none⟩

/-- C127 fails: the default line shape is a class and cannot compute. -/
theorem C127_fails : ¬C127_full := by
  intro h
  obtain ⟨⟨p, hp, -⟩, -⟩ := h [hypLine] (by simp) (by intro t ht; rw [List.mem_singleton] at ht; subst ht; exact ⟨rfl, by simp [hypLine], by simp [hypLine]⟩)
  exact (C127_default_raises [[hypLine]] (.hyp [hypLine]) none none (by simp) (by simp [ZeeArg.given]) p).1 hp

/-- A hyperfine line and a shape of positive width. -/
example : Uniform .hyp [hypLine] ∧ Offered .hyp .l ∧ HasAmplitudes (some [([], 2)]) [hypLine] ∧ (∀ k, 0 < flatShape.width k) ∧
    (∀ t ∈ [hypLine], t.lowM = none ∧ t.upM = none) :=
  ⟨by intro t ht; rw [List.mem_singleton] at ht; subst ht; exact ⟨rfl, by simp [hypLine], by simp [hypLine]⟩, .inl rfl,
    by intro d hd t ht; rw [List.mem_singleton] at ht; cases hd; subst ht; exact ⟨2, rfl⟩, fun _ => one_pos, by simp [hypLine]⟩

/-- Two colourings, one offered for hyperfine lines and one not; a shape of positive width. -/
example : plotSpectrum (.list [hypLine]) (some (.obj flatShape)) .type none .cls none none = .error .NameError :=
  (C127_colouring_raises (fun _ => one_pos)).1 .hyp [hypLine] .type none .cls none (by simp)
    (by intro t ht; rw [List.mem_singleton] at ht; subst ht; exact ⟨rfl, by simp [hypLine], by simp [hypLine]⟩) (by rintro (h | h) <;> cases h)
    (by intro d hd; cases hd)

end AtomTk
