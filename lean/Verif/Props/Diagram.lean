import Verif.Model.Diagram
import Verif.Props.Heights
import Verif.Props.Level

/-!
# Rendering Grotrian diagrams

C121: arrows run between the lines of their levels.  C122: rendering again.  C123: sublevels drawn alone.  C124: brackets and rectangles.
-/

namespace AtomTk

open Util World

/-! ## Where arrows aim -/

/-- A level and the levels it lies in, the nearest first. -/
def lineage (w : World) : Ref → List Ref
  | .fine i => [.fine i]
  | .hyp j => [.hyp j, .fine (w.hf j).parent]
  | .zee z => [.zee z, .hyp (w.zl z).parent, .fine (w.hf (w.zl z).parent).parent]

/-- The first line drawn for a level. -/
def FirstLine (L : List DRow) (r : Ref) (R : DRow) : Prop :=
  ∃ l₁ l₂, L = l₁ ++ R :: l₂ ∧ R.level = r ∧ ∀ x ∈ l₁, x.level ≠ r

/-- No line is drawn for a level. -/
def NoLine (L : List DRow) (r : Ref) : Prop := ∀ x ∈ L, x.level ≠ r

/-- The line an arrow to the level `r` aims at: the first line of the nearest level drawn. -/
def Aims (w : World) (L : List DRow) (r : Ref) (R : DRow) : Prop :=
  ∃ pre q post, lineage w r = pre ++ q :: post ∧ (∀ p ∈ pre, NoLine L p) ∧ FirstLine L q R

theorem find_first {L : List DRow} {r : Ref} {R : DRow} (h : FirstLine L r R) : L.find? (fun x => x.level = r) = some R := by
  obtain ⟨l₁, l₂, rfl, h2, h3⟩ := h
  rw [List.find?_append, List.find?_eq_none.2 (by intro x hx; simpa using h3 x hx)]
  simp [h2]

theorem firstBox_first {L : List DRow} {r : Ref} {R : DRow} (h : FirstLine L r R) : firstBox L r = .ok R.box := by
  unfold firstBox
  rw [find_first h]

theorem drawn_first {L : List DRow} {r : Ref} {R : DRow} (h : FirstLine L r R) : drawn L r = true := by
  obtain ⟨l₁, l₂, rfl, h2, h3⟩ := h
  simp [drawn, h2]

theorem drawn_no {L : List DRow} {r : Ref} (h : NoLine L r) : drawn L r = false := by
  unfold drawn
  rw [List.any_eq_false]
  intro x hx
  simpa using h x hx

theorem firstBox_no {L : List DRow} {r : Ref} (h : NoLine L r) : firstBox L r = .error .IndexError := by
  unfold firstBox
  rw [List.find?_eq_none.2 (by intro x hx; simpa using h x hx)]

theorem first_or_no (L : List DRow) (r : Ref) : NoLine L r ∨ ∃ R, FirstLine L r R := by
  induction L with
  | nil => exact .inl (by intro x hx; cases hx)
  | cons a L ih =>
    by_cases ha : a.level = r
    · exact .inr ⟨a, [], L, rfl, ha, by simp⟩
    · rcases ih with ih | ⟨R, l₁, l₂, rfl, h2, h3⟩
      · refine .inl fun x hx => ?_
        rcases List.mem_cons.1 hx with rfl | hx
        · exact ha
        · exact ih x hx
      · refine .inr ⟨R, a :: l₁, l₂, rfl, h2, fun x hx => ?_⟩
        rcases List.mem_cons.1 hx with rfl | hx
        · exact ha
        · exact h3 x hx

/-- Anchor `n` of a box, moved. -/
def anchorAt (b : Box) (n : ℕ) (off : Pt) : Pt := ((anchorSpec b n).1 + off.1, (anchorSpec b n).2 + off.2)

theorem boxPos_spec (b : Box) (n : ℕ) (h1 : 1 ≤ n) (h9 : n ≤ 9) (off : Pt) : boxPos b n off = .ok (anchorAt b n off) := by
  unfold boxPos
  interval_cases n <;>
    (simp only [posDict, Dict.getE, Dict.get?, anchorAt, anchorSpec, bind, Except.bind]
     simp
     try constructor
     all_goals ring)

theorem anchorPos_num {n : ℕ} (hn : 1 ≤ n ∧ n ≤ 9) (b : Box) (off : Pt) : anchorPos b off (.num n) = .ok (anchorAt b n off) :=
  boxPos_spec b n hn.1 hn.2 off

theorem posIf_first {L : List DRow} {q : Ref} {R : DRow} (h : FirstLine L q R) {c : Bool} (hc : c = true) {a : Anchor} {P : Box → Pt → Pt}
    (ha : ∀ b off, anchorPos b off a = .ok (P b off)) (off : Pt) (p : Option Pt) : posIf c L q a off p = .ok (some (P R.box off)) := by
  unfold posIf
  rw [if_pos hc, firstBox_first h]
  simp only [bind, Except.bind, ha]

theorem posIf_no {L : List DRow} {q : Ref} {c : Bool} (hc : c = false) (a : Anchor) (off : Pt) (p : Option Pt) :
    posIf c L q a off p = .ok p := by
  unfold posIf
  rw [if_neg (by simp [hc])]

/-- Positions when something is drawn. -/
theorem posOf_aims {w : World} {L : List DRow} {r : Ref} {R : DRow} (h : Aims w L r R) {a : Anchor} {P : Box → Pt → Pt}
    (ha : ∀ b off, anchorPos b off a = .ok (P b off)) (off : Pt) : w.posOf L r a off .no = .ok (some (P R.box off)) := by
  obtain ⟨pre, q, post, e, hn, hf⟩ := h
  have any : ∀ (s : Ref) (p : Option Pt), ∃ p', posIf (drawn L s) L s a off p = .ok p' := by
    intro s p
    rcases first_or_no L s with hs | ⟨S, hs⟩
    · exact ⟨_, posIf_no (drawn_no hs) _ _ _⟩
    · exact ⟨_, posIf_first hs (drawn_first hs) ha _ _⟩
  have g1 : (Override.no == Override.gross) = false := rfl
  have g2 : (Override.no == Override.hf) = false := rfl
  have g3 : (Override.no == Override.no) = true := rfl
  cases r with
  | fine i =>
    unfold posOf
    simp only [lineage] at e
    rcases pre with _ | ⟨a', pre⟩
    · simp only [List.nil_append, List.cons.injEq] at e
      obtain ⟨rfl, -⟩ := e
      exact posIf_first hf rfl ha _ _
    · simp at e
  | hyp j =>
    unfold posOf
    simp only [g1, g3, Bool.or_false, Bool.and_true]
    obtain ⟨p1, e1⟩ := any (.fine (w.hf j).parent) none
    simp only [lineage] at e
    rcases pre with _ | ⟨a', _ | ⟨b, pre⟩⟩
    · simp only [List.nil_append, List.cons.injEq] at e
      obtain ⟨rfl, -⟩ := e
      rw [e1]
      exact posIf_first hf (drawn_first hf) ha _ _
    · simp only [List.cons_append, List.nil_append, List.cons.injEq] at e
      obtain ⟨rfl, rfl, -⟩ := e
      rw [posIf_first hf (drawn_first hf) ha]
      exact posIf_no (drawn_no (hn _ (by simp))) _ _ _
    · simp at e
  | zee z =>
    unfold posOf
    simp only [g1, g2, g3, Bool.or_false, Bool.and_true]
    obtain ⟨p1, e1⟩ := any (.fine (w.hf (w.zl z).parent).parent) none
    simp only [lineage] at e
    rcases pre with _ | ⟨a', _ | ⟨b, _ | ⟨c, pre⟩⟩⟩
    · simp only [List.nil_append, List.cons.injEq] at e
      obtain ⟨rfl, -⟩ := e
      rw [e1]
      obtain ⟨p2, e2⟩ := any (.hyp (w.zl z).parent) p1
      simp only [bind, Except.bind, e2]
      exact posIf_first hf (drawn_first hf) ha _ _
    · simp only [List.cons_append, List.nil_append, List.cons.injEq] at e
      obtain ⟨rfl, rfl, -⟩ := e
      rw [e1]
      simp only [bind, Except.bind, posIf_first hf (drawn_first hf) ha]
      exact posIf_no (drawn_no (hn _ (by simp))) _ _ _
    · simp only [List.cons_append, List.nil_append, List.cons.injEq] at e
      obtain ⟨rfl, rfl, rfl, -⟩ := e
      rw [posIf_first hf (drawn_first hf) ha]
      simp only [bind, Except.bind, posIf_no (drawn_no (hn (.hyp (w.zl z).parent) (by simp)))]
      exact posIf_no (drawn_no (hn _ (by simp))) _ _ _
    · simp at e

/-- What the code has for a position when nothing is drawn. -/
def noPos : Ref → Py (Option Pt)
  | .fine _ => .error .IndexError
  | _ => .ok none

/-- Positions when nothing is drawn. -/
theorem posOf_no {w : World} {L : List DRow} {r : Ref} (h : ∀ q ∈ lineage w r, NoLine L q) (a : Anchor) (off : Pt) :
    w.posOf L r a off .no = noPos r := by
  have g1 : (Override.no == Override.gross) = false := rfl
  have g2 : (Override.no == Override.hf) = false := rfl
  have g3 : (Override.no == Override.no) = true := rfl
  cases r with
  | fine i =>
    show posIf true L (.fine i) a off none = _
    unfold posIf
    rw [if_pos rfl, firstBox_no (h _ (by simp [lineage]))]
    rfl
  | hyp j =>
    unfold posOf
    simp only [g1, g3, Bool.or_false, Bool.and_true]
    rw [posIf_no (drawn_no (h (.fine (w.hf j).parent) (by simp [lineage])))]
    exact posIf_no (drawn_no (h _ (by simp [lineage]))) _ _ _
  | zee z =>
    unfold posOf
    simp only [g1, g2, g3, Bool.or_false, Bool.and_true]
    rw [posIf_no (drawn_no (h (.fine (w.hf (w.zl z).parent).parent) (by simp [lineage])))]
    simp only [bind, Except.bind, posIf_no (drawn_no (h (.hyp (w.zl z).parent) (by simp [lineage])))]
    exact posIf_no (drawn_no (h _ (by simp [lineage]))) _ _ _

/-! ## C121 -/

/-- C121: an arrow starts and ends at the chosen anchors of the lines its two levels aim at. -/
theorem C121_aims_partial {w : World} {L : List DRow} {f : ArrowFor} {k : ArrowKw} {n m : ℕ} (hn : 1 ≤ n ∧ n ≤ 9) (hm : 1 ≤ m ∧ m ≤ 9)
    (hk : k.startAnchor = .num n ∧ k.endAnchor = .num m ∧ k.override = none) {R S : DRow} (hR : Aims w L (w.arrowEnds f).1 R)
    (hS : Aims w L (w.arrowEnds f).2 S) :
    w.computeArrow L f k = .ok (anchorAt R.box n k.startOff, anchorAt S.box m k.endOff) := by
  obtain ⟨k1, k2, k3⟩ := hk
  unfold computeArrow
  rw [k1, k2, k3]
  simp only [Option.getD_none, posOf_aims hR (anchorPos_num hn), posOf_aims hS (anchorPos_num hm), bind, Except.bind]

/-- The point of a box a fraction `p` of the way to the right and `q` of the way up, moved. -/
def pointIn (b : Box) (p q : ℚ) (off : Pt) : Pt := (b.x0 + p * (b.x1 - b.x0) + off.1, b.y0 + q * (b.y1 - b.y0) + off.2)

/-- C121: the same for anchors given as weights of the corners: they are the points with these fractions of the box. -/
theorem C121_weights_partial {w : World} {L : List DRow} {f : ArrowFor} {k : ArrowKw} {p q p' q' : ℚ}
    (hk : k.startAnchor = .vec (1 - p) (1 - q) p q ∧ k.endAnchor = .vec (1 - p') (1 - q') p' q' ∧ k.override = none) {R S : DRow}
    (hR : Aims w L (w.arrowEnds f).1 R) (hS : Aims w L (w.arrowEnds f).2 S) :
    w.computeArrow L f k = .ok (pointIn R.box p q k.startOff, pointIn S.box p' q' k.endOff) := by
  obtain ⟨k1, k2, k3⟩ := hk
  have ha : ∀ (p q : ℚ) b off, anchorPos b off (.vec (1 - p) (1 - q) p q) = .ok (pointIn b p q off) := by
    intro p q b off
    simp only [anchorPos, pointIn, Except.ok.injEq, Prod.mk.injEq]
    constructor <;> ring
  unfold computeArrow
  rw [k1, k2, k3]
  simp only [Option.getD_none, posOf_aims hR (ha p q), posOf_aims hS (ha p' q'), bind, Except.bind]

/-- C121: an arrow from or to a level of which neither the level itself nor one it lies in is drawn raises: `IndexError` if a
fine-structure level is missing, otherwise `ValueError`. -/
theorem C121_not_drawn_raises {w : World} {L : List DRow} {f : ArrowFor} {k : ArrowKw} {n m : ℕ} (hn : 1 ≤ n ∧ n ≤ 9) (hm : 1 ≤ m ∧ m ≤ 9)
    (hk : k.startAnchor = .num n ∧ k.endAnchor = .num m ∧ k.override = none)
    (h : (∀ q ∈ lineage w (w.arrowEnds f).1, NoLine L q) ∨ ∀ q ∈ lineage w (w.arrowEnds f).2, NoLine L q) :
    w.computeArrow L f k = .error .IndexError ∨ w.computeArrow L f k = .error .ValueError := by
  obtain ⟨k1, k2, k3⟩ := hk
  have tot : ∀ (r : Ref) (n : ℕ) (off : Pt), 1 ≤ n ∧ n ≤ 9 →
      w.posOf L r (.num n) off .no = .error .IndexError ∨ ∃ p, w.posOf L r (.num n) off .no = .ok p := by
    intro r n off hn
    by_cases hd : ∃ R, Aims w L r R
    · obtain ⟨R, hR⟩ := hd
      exact .inr ⟨_, posOf_aims hR (anchorPos_num hn) off⟩
    · have : ∀ q ∈ lineage w r, NoLine L q := by
        have key : ∀ l : List Ref, (∀ pre q post, l = pre ++ q :: post → (∀ p ∈ pre, NoLine L p) → ¬∃ R, FirstLine L q R) → ∀ q ∈ l, NoLine L q := by
          intro l
          induction l with
          | nil => intro _ q hq; cases hq
          | cons a l ih =>
            intro hl
            have ha : NoLine L a := (first_or_no L a).resolve_right (hl [] a l rfl (by simp))
            intro q hq
            rcases List.mem_cons.1 hq with rfl | hq
            · exact ha
            · refine ih (fun pre q post e hp => hl (a :: pre) q post (by rw [e]; rfl) ?_) q hq
              intro p hp'
              rcases List.mem_cons.1 hp' with rfl | hp'
              · exact ha
              · exact hp p hp'
        exact key _ fun pre q post e hp ⟨R, hR⟩ => hd ⟨R, pre, q, post, e, hp, hR⟩
      rw [posOf_no this]
      cases r
      · exact .inl rfl
      · exact .inr ⟨_, rfl⟩
      · exact .inr ⟨_, rfl⟩
  unfold computeArrow
  rw [k1, k2, k3]
  simp only [Option.getD_none]
  rcases h with h | h
  · rw [posOf_no h]
    rcases (w.arrowEnds f).1 with i | j | z
    · exact .inl rfl
    · rcases tot (w.arrowEnds f).2 m k.endOff hm with h2 | ⟨p, h2⟩
      · rw [h2]; exact .inl rfl
      · rw [h2]; exact .inr rfl
    · rcases tot (w.arrowEnds f).2 m k.endOff hm with h2 | ⟨p, h2⟩
      · rw [h2]; exact .inl rfl
      · rw [h2]; exact .inr rfl
  · rcases tot (w.arrowEnds f).1 n k.startOff hn with h2 | ⟨p, h2⟩
    · rw [h2]; exact .inl rfl
    · rw [h2, posOf_no h]
      rcases (w.arrowEnds f).2 with i | j | z
      · exact .inl rfl
      · refine .inr ?_
        cases p <;> rfl
      · refine .inr ?_
        cases p <;> rfl

/-- C121: the keyword `override_bbox` always raises. -/
theorem C121_override_raises (w : World) (L : List DRow) (f : ArrowFor) (k : ArrowKw) (h : k.override ≠ none) (a : Pt × Pt) :
    w.computeArrow L f k ≠ .ok a := by
  unfold computeArrow
  cases hk : k.override with
  | none => exact absurd hk h
  | some o =>
    simp only [bind, Except.bind]
    split
    · simp
    · split <;> simp

/-! ## Diagrams of gross structure -/

/-- A prompt for the gross structure that can be drawn in the state `w`: the level is in the atom and has a `J`. -/
structure Gross (w : World) (p : Prompt) : Prop where
  str : p.strategy = .gross
  ok : DrawKw.Ok p.kw
  sq : p.kw.squeeze = .dflt ∨ p.kw.squeeze = .yes
  inA : (w.lv (w.manifoldOf p.level)).inAtom = true
  hJ : (w.lv (w.manifoldOf p.level)).term.J.isSome = true

/-- The middle of the line of a prompt: `J` to the right and the energy in THz up, unless another place is asked for, plus the shifts. -/
def midOf (w : World) (p : Prompt) : Pt :=
  (p.kw.x0.getD ((w.lv (w.manifoldOf p.level)).term.J.getD 0) + p.kw.x1,
   p.kw.y0.getD (w.eHz (w.manifoldOf p.level) / 1000000000000) + p.kw.y1)

/-- The line of a prompt: as wide as asked for, about the middle. -/
def segOf (w : World) (p : Prompt) : Pt × Pt :=
  (((midOf w p).1 - p.kw.width / 2, (midOf w p).2), ((midOf w p).1 + p.kw.width / 2, (midOf w p).2))

/-- The row of a prompt. -/
structure GRow (w : World) (p : Prompt) (R : DRow) : Prop where
  level : R.level = .fine (w.manifoldOf p.level)
  shown : R.shown = true
  seg : (R.p0, R.p1) = segOf w p
  mid : anchorAt R.box 5 (0, 0) = midOf w p

theorem bbox_flat (a b y pad : ℚ) : bbox [(a, y), (b, y)] pad = .ok ⟨min a b - pad, y - (y - y) * pad, max a b + pad, y + (y - y) * pad⟩ := by
  unfold bbox pyMax pyMin
  simp [bind, Except.bind]

theorem tableOf_gross {w : World} {p : Prompt} (h : Gross w p) : ∃ R, tableOf p w = (w, .ok [R]) ∧ GRow w p R := by
  obtain ⟨J, hJ⟩ := Option.isSome_iff_exists.1 h.hJ
  have hp := procKw_ok (t := (w.lv (w.manifoldOf p.level)).term) h.inA hJ h.ok h.sq
  have hx : (p.kw.x0.getD J + p.kw.x1) = (midOf w p).1 := by simp [midOf, hJ]
  have hy : (p.kw.y0.getD (w.eHz (w.manifoldOf p.level) / 1000000000000) + p.kw.y1) = (midOf w p).2 := rfl
  refine ⟨⟨.fine (w.manifoldOf p.level), true, (segOf w p).1, (segOf w p).2,
    ⟨min (segOf w p).1.1 (segOf w p).2.1 - p.kw.pad, (midOf w p).2 - ((midOf w p).2 - (midOf w p).2) * p.kw.pad,
      max (segOf w p).1.1 (segOf w p).2.1 + p.kw.pad, (midOf w p).2 + ((midOf w p).2 - (midOf w p).2) * p.kw.pad⟩⟩, ?_, rfl, rfl, rfl, ?_⟩
  · unfold tableOf
    rw [h.str]
    unfold grossTable
    simp only
    rw [PyM.bind_ok (show PyM.get w = (w, .ok w) from rfl)]
    unfold single
    refine PyM.bind_ok (m := levelRow (w.manifoldOf p.level) none true p.kw) ?_
    unfold levelRow
    rw [PyM.bind_ok (show PyM.get w = (w, .ok w) from rfl)]
    simp only
    rw [PyM.bind_ok hp]
    simp only [hx, hy]
    unfold mkRow
    simp only [bbox_flat]
    rfl
  · refine Prod.ext ?_ ?_
    · simp only [anchorAt, anchorSpec]
      simp
      simp only [segOf]
      ring
    · simp only [anchorAt, anchorSpec]
      simp

/-- C122: rendering appends to the lines already there, whatever the strategies: the lines of the earlier renderings, then those of
a new diagram with the same prompts. -/
theorem addLines_append (ps : List Prompt) (L : List DRow) (w : World) :
    addLines ps L w = ((addLines ps [] w).1, L ++ (addLines ps [] w).2.1, (addLines ps [] w).2.2) := by
  have key : ∀ (ps : List Prompt) (L M : List DRow) (w : World),
      addLines ps (L ++ M) w = ((addLines ps M w).1, L ++ (addLines ps M w).2.1, (addLines ps M w).2.2) := by
    intro ps
    induction ps with
    | nil => intro L M w; rfl
    | cons p ps ih =>
      intro L M w
      unfold addLines
      rcases hE : tableOf p w with ⟨w', r⟩
      cases r with
      | error e => rfl
      | ok t =>
        simp only
        rw [List.append_assoc, ih L (M ++ t) w']
  have := key ps L [] w
  rwa [List.append_nil] at this

theorem addLines_gross {w : World} {ps : List Prompt} (h : ∀ p ∈ ps, Gross w p) : ∃ L, addLines ps [] w = (w, L, .ok ()) ∧
    List.Forall₂ (GRow w) ps L := by
  induction ps with
  | nil => exact ⟨[], rfl, .nil⟩
  | cons p ps ih =>
    obtain ⟨R, h1, h2⟩ := tableOf_gross (h p (by simp))
    obtain ⟨L, h3, h4⟩ := ih fun q hq => h q (by simp [hq])
    refine ⟨R :: L, ?_, .cons h2 h4⟩
    unfold addLines
    rw [h1]
    simp only
    rw [addLines_append, h3]
    rfl

theorem segments_gross {w : World} {ps : List Prompt} {L : List DRow} (h : List.Forall₂ (GRow w) ps L) : segments L = ps.map (segOf w) := by
  induction h with
  | nil => rfl
  | @cons p R ps L h1 h2 ih =>
    unfold segments at ih ⊢
    rw [List.filter_cons_of_pos (by simpa using h1.shown), List.map_cons, ih, h1.seg]
    rfl

/-- The first prompt for a level is the first line. -/
theorem first_gross {w : World} {ps : List Prompt} {L : List DRow} (h : List.Forall₂ (GRow w) ps L) {i : Nat} {p : Prompt}
    (hp : ps.find? (fun p => w.manifoldOf p.level = i) = some p) : ∃ R, FirstLine L (.fine i) R ∧ GRow w p R := by
  induction h with
  | nil => cases hp
  | @cons q R ps L h1 h2 ih =>
    rw [List.find?_cons] at hp
    by_cases hq : w.manifoldOf q.level = i
    · simp only [hq, decide_true, Option.some.injEq] at hp
      subst hp
      exact ⟨R, ⟨[], L, rfl, by rw [h1.level, hq], by simp⟩, h1⟩
    · simp only [hq, decide_false] at hp
      obtain ⟨S, ⟨l₁, l₂, rfl, g2, g3⟩, g⟩ := ih hp
      refine ⟨S, ⟨R :: l₁, l₂, rfl, g2, fun x hx => ?_⟩, g⟩
      rcases List.mem_cons.1 hx with rfl | hx
      · rw [h1.level]
        intro hc
        cases hc
        exact hq rfl
      · exact g3 x hx

/-- The arrow of a transition in a state: from the middle of the first line of its lower level to that of its upper level. -/
def ArrowIs (w : World) (ps : List Prompt) (t : Nat) (a : Pt × Pt) : Prop :=
  ∃ p q, ps.find? (fun p => w.manifoldOf p.level = (w.tr t).lower) = some p ∧ ps.find? (fun p => w.manifoldOf p.level = (w.tr t).upper) = some q ∧
    a = (midOf w p, midOf w q)

/-- Both levels of the transition are drawn. -/
def Covers (w : World) (ps : List Prompt) (t : Nat) : Prop :=
  (∃ p ∈ ps, w.manifoldOf p.level = (w.tr t).lower) ∧ ∃ p ∈ ps, w.manifoldOf p.level = (w.tr t).upper

theorem covers_find {w : World} {ps : List Prompt} {i : Nat} (h : ∃ p ∈ ps, w.manifoldOf p.level = i) :
    ∃ p, ps.find? (fun p => w.manifoldOf p.level = i) = some p := by
  obtain ⟨p, h1, h2⟩ := h
  rw [← Option.isSome_iff_exists, List.find?_isSome]
  exact ⟨p, h1, by simpa using h2⟩

theorem mapM_arrows {w : World} {L : List DRow} {P : Nat → Pt × Pt → Prop} (ts : List Nat)
    (h : ∀ t ∈ ts, ∃ a, w.computeArrow L (.trans t) {} = .ok a ∧ P t a) :
    ∃ as, (ts.map (fun t => (ArrowFor.trans t, ({} : ArrowKw)))).mapM (fun a => w.computeArrow L a.1 a.2) = .ok as ∧ List.Forall₂ P ts as := by
  induction ts with
  | nil => exact ⟨[], rfl, .nil⟩
  | cons t ts ih =>
    obtain ⟨a, h1, h2⟩ := h t (by simp)
    obtain ⟨as, h3, h4⟩ := ih fun s hs => h s (by simp [hs])
    refine ⟨a :: as, ?_, .cons h2 h4⟩
    rw [List.map_cons, List.mapM_cons, h1]
    simp only [bind, Except.bind] at h3 ⊢
    rw [h3]
    rfl

/-- C121, a new diagram of gross structure: rendering it does not raise, there is one line per prompt where it was asked for, and every
arrow runs from the middle of the line of the lower level to the middle of that of the upper level. -/
theorem C121_gross_partial {w : World} {ps : List Prompt} {ts : List Nat} (h : ∀ p ∈ ps, Gross w p) (ht : ∀ t ∈ ts, Covers w ps t) :
    ∃ d pic, render (.new ps (ts.map fun t => (.trans t, {}))) w = (w, d, .ok pic) ∧ pic.segments = ps.map (segOf w) ∧
      List.Forall₂ (ArrowIs w ps) ts pic.arrows := by
  obtain ⟨L, h1, h2⟩ := addLines_gross h
  obtain ⟨as, h3, h4⟩ := mapM_arrows (w := w) (L := L) (P := ArrowIs w ps) ts (by
    intro t htt
    obtain ⟨p, hp⟩ := covers_find (ht t htt).1
    obtain ⟨q, hq⟩ := covers_find (ht t htt).2
    obtain ⟨R, r1, r2⟩ := first_gross h2 hp
    obtain ⟨S, s1, s2⟩ := first_gross h2 hq
    refine ⟨_, C121_aims_partial (n := 5) (m := 5) (by decide) (by decide) ⟨rfl, rfl, rfl⟩ (R := R) (S := S)
      ⟨[], _, [], rfl, by simp, r1⟩ ⟨[], _, [], rfl, by simp, s1⟩, p, q, hp, hq, ?_⟩
    rw [show anchorAt R.box 5 _ = _ from r2.mid, show anchorAt S.box 5 _ = _ from s2.mid])
  refine ⟨⟨ps, ts.map fun t => (.trans t, {}), L⟩, ⟨segments L, as⟩, ?_, segments_gross h2, h4⟩
  unfold render Diagram.new
  simp only [h1]
  simp only [bind, Except.bind] at h3 ⊢
  rw [h3]

/-- The full claim: also after the atom has changed since an earlier rendering, arrows run between the present lines. -/
def C121_full : Prop := ∀ (w₀ w : World) (op : Op) (ps : List Prompt) (ts : List Nat), Reachable w₀ → (∀ p ∈ ps, Gross w₀ p) →
  (∀ t ∈ ts, Covers w₀ ps t) → op.run w₀ = (w, .ok ()) → (∀ p ∈ ps, Gross w p) → (∀ t ∈ ts, Covers w ps t) →
  ∃ d pic, render (render (.new ps (ts.map fun t => (.trans t, {}))) w₀).2.1 w = (w, d, .ok pic) ∧ List.Forall₂ (ArrowIs w ps) ts pic.arrows

/-- Two levels with a transition. -/
def arrowOps : List Op :=
  [.newLevel (demoTerm 'g') 0 0 0 0 0 none, .newLevel (demoTerm 'a') 5000000000000 0 0 0 0 none, .addLevel 0 false none,
   .addLevel 1 false none, .newTrans 0 1 none .none none]

/-- The atom. -/
def arrowAtom : World := runAll arrowOps (emptyAtom 0 0)

/-- Both levels are drawn. -/
def arrowPrompts : List Prompt := [⟨.fine 0, .gross, {}⟩, ⟨.fine 1, .gross, {}⟩]

theorem arrow_kw : DrawKw.Ok {} := ⟨by norm_num, by norm_num, by norm_num, by norm_num⟩

theorem arrowAtom_gross : ∀ p ∈ arrowPrompts, Gross arrowAtom p := by
  intro p hp
  simp only [arrowPrompts, List.mem_cons, List.not_mem_nil, or_false] at hp
  rcases hp with rfl | rfl <;> exact ⟨rfl, arrow_kw, .inl rfl, by decide +kernel, by decide +kernel⟩

theorem arrowAtom_covers : ∀ t ∈ [0], Covers arrowAtom arrowPrompts t := by
  intro t ht
  rw [List.mem_singleton.1 ht]
  exact ⟨⟨_, List.mem_cons_self, by decide +kernel⟩, ⟨_, List.mem_cons_of_mem _ List.mem_cons_self, by decide +kernel⟩⟩

/-- The atom after the upper level has been moved. -/
def movedAtom : World := runAll (arrowOps ++ [.setEnergy 1 7000000000000]) (emptyAtom 0 0)

/-- The hypotheses of `C121_gross_partial` are met; the arrow is drawn from height 0 to height 5. -/
example : (render (.new arrowPrompts [(.trans 0, {})]) arrowAtom).2.2 =
    .ok ⟨[((1/10, 0), (9/10, 0)), ((1/10, 5), (9/10, 5))], [((1/2, 0), (1/2, 5))]⟩ := by decide +kernel

/-- After moving the level and rendering again, the line of height 5 is still there, and the arrow ends at it. -/
theorem C121_stale : (render (render (.new arrowPrompts [(.trans 0, {})]) arrowAtom).2.1 movedAtom).2.2 =
    .ok ⟨[((1/10, 0), (9/10, 0)), ((1/10, 5), (9/10, 5)), ((1/10, 0), (9/10, 0)), ((1/10, 7), (9/10, 7))], [((1/2, 0), (1/2, 5))]⟩ := by
  decide +kernel

theorem C121_fails : ¬C121_full := by
  intro h
  obtain ⟨d, pic, h1, h2⟩ := h arrowAtom movedAtom (.setEnergy 1 7000000000000) arrowPrompts [0] (demo_reachable (by decide +kernel))
    arrowAtom_gross arrowAtom_covers rfl (by
      intro p hp
      simp only [arrowPrompts, List.mem_cons, List.not_mem_nil, or_false] at hp
      rcases hp with rfl | rfl <;> exact ⟨rfl, arrow_kw, .inl rfl, by decide +kernel, by decide +kernel⟩) (by
      intro t ht
      rw [List.mem_singleton.1 ht]
      exact ⟨⟨_, List.mem_cons_self, by decide +kernel⟩, ⟨_, List.mem_cons_of_mem _ List.mem_cons_self, by decide +kernel⟩⟩)
  have h3 := C121_stale
  rw [show ([(ArrowFor.trans 0, ({} : ArrowKw))]) = [0].map (fun t => (ArrowFor.trans t, ({} : ArrowKw))) from rfl, h1] at h3
  simp only [Except.ok.injEq] at h3
  subst h3
  cases h2 with
  | cons h4 h5 =>
    obtain ⟨p, q, hp, hq, e⟩ := h4
    have h6 : arrowPrompts.find? (fun p => movedAtom.manifoldOf p.level = (movedAtom.tr 0).upper) = some ⟨.fine 1, .gross, {}⟩ := by
      rw [show (movedAtom.tr 0).upper = 1 by decide +kernel]
      rfl
    rw [h6] at hq
    cases hq
    have h7 : (5 : ℚ) = (midOf movedAtom ⟨.fine 1, .gross, {}⟩).2 := congrArg (fun a : Pt × Pt => a.2.2) e
    exact absurd h7 (by decide +kernel)

/-! ## C122 -/

/-- The full claim: rendering a second time, with nothing changed in between, gives the same picture. -/
def C122_full : Prop := ∀ (w : World) (ps : List Prompt), (∀ p ∈ ps, Gross w p) →
  (render (render (.new ps []) w).2.1 w).2.2 = (render (.new ps []) w).2.2

/-- C122: for every diagram, rendering adds to the lines of the renderings before the lines of a new diagram with the same prompts. -/
theorem C122_appends {d : Diagram} {w w' : World} {d' : Diagram} {pic : Picture} (h : render d w = (w', d', .ok pic)) :
    ∃ L, (render (.new d.levels []) w) = (w', ⟨d.levels, [], L⟩, .ok ⟨segments L, []⟩) ∧ d'.lines = d.lines ++ L ∧
      pic.segments = segments d.lines ++ segments L := by
  unfold render at h
  rw [addLines_append] at h
  rcases hE : addLines d.levels [] w with ⟨w1, L, r⟩
  rw [hE] at h
  cases r with
  | error e => simp at h
  | ok u =>
    simp only [Prod.mk.injEq] at h
    obtain ⟨rfl, rfl, h⟩ := h
    refine ⟨L, ?_, rfl, ?_⟩
    · unfold render Diagram.new
      simp only [hE]
      rfl
    · cases hm : d.arrows.mapM (fun a => w1.computeArrow (d.lines ++ L) a.1 a.2) with
      | error e =>
        simp only [bind, Except.bind] at h hm
        rw [hm] at h
        cases h
      | ok as =>
        simp only [bind, Except.bind] at h hm
        rw [hm] at h
        simp only [Except.ok.injEq] at h
        rw [← h]
        simp [segments]

/-- C122, gross structure: the second picture has every line twice.  Missing: that it is the same picture, `C122_fails`. -/
theorem C122_twice_partial {w : World} {ps : List Prompt} (h : ∀ p ∈ ps, Gross w p) :
    ∃ d d', render (.new ps []) w = (w, d, .ok ⟨ps.map (segOf w), []⟩) ∧
      render d w = (w, d', .ok ⟨ps.map (segOf w) ++ ps.map (segOf w), []⟩) := by
  obtain ⟨L, h1, h2⟩ := addLines_gross h
  refine ⟨⟨ps, [], L⟩, ⟨ps, [], L ++ L⟩, ?_, ?_⟩
  · unfold render Diagram.new
    simp only [h1, segments_gross h2]
    rfl
  · unfold render
    simp only
    rw [addLines_append, h1]
    simp only
    have : segments (L ++ L) = segments L ++ segments L := by simp [segments]
    rw [this, segments_gross h2]
    rfl

theorem C122_fails : ¬C122_full := by
  intro h
  have h1 := h arrowAtom arrowPrompts arrowAtom_gross
  obtain ⟨d, d', e1, e2⟩ := C122_twice_partial arrowAtom_gross
  rw [e1] at h1
  simp only [e2] at h1
  have h2 := congrArg (fun r : Py Picture => r.toOption.map (fun p => p.segments.length)) h1
  revert h2
  simp [arrowPrompts, Except.toOption]

/-- The hypotheses are met: two levels, four lines after the second rendering. -/
example : ((render (render (.new arrowPrompts []) arrowAtom).2.1 arrowAtom).2.2.toOption.map (fun p => p.segments.length)) = some 4 := by
  decide +kernel

/-! ## C123 -/

/-- The full claim: added alone with the hyperfine strategy, a hyperfine level is drawn as in the table of the whole level, and a Zeeman
level at the height of its hyperfine level or at least at the height of its own energy. -/
def C123_full : Prop := ∀ (w : World) (i : Nat) (J : ℚ) (k : DrawKw), DrawLevel w i J → DrawKw.Usual k → k.spacing = 1 →
  ∃ w' rows, tableOf ⟨.fine i, .hyperfine, k⟩ w = (w', .ok rows) ∧
    (∀ j ∈ (w'.lv i).subs.vals, ∃ r, tableOf ⟨.hyp j, .hyperfine, k⟩ w' = (w', .ok [r]) ∧ RowOf rows j r) ∧
    ∀ z, (∃ j ∈ (w'.lv i).subs.vals, z ∈ (w'.hf j).subs.vals) → ∃ r s e, tableOf ⟨.zee z, .hyperfine, k⟩ w' = (w', .ok [r]) ∧
      RowOf rows (w'.zl z).parent s ∧ w'.zHz z = .ok e ∧
      (r.p0.2 = s.p0.2 ∨ r.p0.2 = k.y0.getD (w.eHz i / 1000000000000) + k.y1 + k.hfScale * (e - w.eHz i) / 1000000000000)

theorem hTableF_rows {w : World} {i : Nat} {J : ℚ} {k : DrawKw} (h : DrawLevel w i J) (hk : DrawKw.Usual k) :
    ∃ w' rs fr, hTableF i k w = (w', .ok (rs ++ [fr])) ∧ Draw w' i J ∧ fr.level = .fine i ∧ ((w.lv i).subs ≠ [] → w' = w) ∧
      List.Forall₂ (fun j r => hRow j none true k w' = (w', .ok r) ∧ r.level = .hyp j) (w'.lv i).subs.vals rs := by
  obtain ⟨w1, rs1, fr, lo, g1, g2, g3, g4, -⟩ := hTableF_ok h.reach.subInv h.hI h.inA h.hJ h.hs h.hF hk.ok hk.sq
  obtain ⟨w2, e1, e2, e5⟩ := lazyHF_ok h.reach.subInv.keys h.hI h.inA h.hJ h.hs h.hF
  have hfr : LFrame w w2 := by
    have := lazyHF_frame i w
    rwa [e1] at this
  have hin1 : SubInv w2 := by
    have := h.reach.subInv.steps (lazyHF_steps (C := fun _ _ _ => True) i w)
    rwa [e1] at this
  have hD : Draw w2 i J := ⟨hin1, by rw [hfr.I]; exact h.hI, by rw [hfr.inAtom]; exact h.inA, by rw [hfr.term]; exact h.hJ, h.hs,
    by rw [hfr.term]; exact h.hF, by rw [hfr.I]; exact e2⟩
  obtain ⟨rs, e3, e4⟩ := rowsOf_const (f := fun j => do let r ← hRow j none true k; pure [r])
    (P := fun j r => hRow j none true k w2 = (w2, .ok r) ∧ r.level = .hyp j) (w := w2) (w2.lv i).subs.vals (by
      intro j hj
      obtain ⟨F, hjF⟩ := (hyp_vals hin1 hD.hI hD.hJ h.hs hD.hF j).1 hj
      obtain ⟨lo', -, -, r, q1, q2, -⟩ := hRow_ok hD hjF none true hk.ok hk.sq
      refine ⟨r, ?_, q1, q2.level⟩
      rw [PyM.bind_ok q1]; rfl)
  have hE := g1
  unfold hTableF at hE
  rw [PyM.bind_ok e1, PyM.bind_ok (show PyM.get w2 = (w2, .ok w2) from rfl), PyM.bind_ok e3] at hE
  have hne : (w2.lv i).subs.vals ≠ [] := by
    intro h2
    have := hyp_zip hD
    rw [h2] at this
    cases hzz : hfFs w2.I J with
    | nil => exact hfFs_ne hD.hI h.hs hzz
    | cons a l => rw [hzz] at this; cases this
  have hrs : rs ≠ [] := by
    rintro rfl
    cases hv : (w2.lv i).subs.vals with
    | nil => exact hne hv
    | cons a l => rw [hv] at e4; cases e4
  rw [PyM.bind_ok (show PyM.lift (concatE (w2.lv i).subs.vals rs) w2 = (w2, .ok rs) by rw [concatE_ok hne]; rfl)] at hE
  obtain ⟨b, b1, b2⟩ := pts_box hrs
  obtain ⟨fr2, q1, q2, -⟩ := levelRow_ok hD b false hk.ok hk.sq
  rw [PyM.bind_ok (show PyM.lift (bbox (rowPts rs) dfltPad) w2 = (w2, .ok b) by rw [b1]; rfl), PyM.bind_ok q1] at hE
  rw [← hE] at g1
  exact ⟨w2, rs, fr2, g1, hD, q2, e5, e4⟩

/-- C123, hyperfine levels: with the hyperfine strategy drawn as in the table of the whole level; with the gross strategy as the level.
Missing: Zeeman levels with the hyperfine strategy, `C123_fails`. -/
theorem C123_hyperfine_partial {w : World} {i : Nat} {J : ℚ} {k : DrawKw} (h : DrawLevel w i J) (hk : DrawKw.Usual k) :
    ∃ w' rows, tableOf ⟨.fine i, .hyperfine, k⟩ w = (w', .ok rows) ∧
      ∀ j ∈ (w'.lv i).subs.vals, (∃ r, tableOf ⟨.hyp j, .hyperfine, k⟩ w' = (w', .ok [r]) ∧ RowOf rows j r ∧ r.shown = true ∧
          ∀ s, RowOf rows j s → s = r) ∧
        tableOf ⟨.hyp j, .gross, k⟩ w' = tableOf ⟨.fine i, .gross, k⟩ w' := by
  obtain ⟨w', rs, fr, g1, g2, g3, -, g4⟩ := hTableF_rows h hk
  refine ⟨w', _, g1, fun j hj => ⟨?_, ?_⟩⟩
  · obtain ⟨r, m1, m2, m3⟩ := forall2_mem_left g4 hj
    refine ⟨r, ?_, ⟨List.mem_append_left _ m1, m3⟩, ?_, ?_⟩
    · show single _ w' = _
      unfold single
      rw [PyM.bind_ok m2]; rfl
    · obtain ⟨F, hjF⟩ := (hyp_vals g2.inv g2.hI g2.hJ g2.hs g2.hF j).1 hj
      obtain ⟨lo', -, -, r', q1, q2, -⟩ := hRow_ok g2 hjF none true hk.ok hk.sq
      rw [m2] at q1
      simp only [Prod.mk.injEq, true_and, Except.ok.injEq] at q1
      rw [q1]; exact q2.shown
    · rintro s ⟨s1, s2⟩
      rcases List.mem_append.1 s1 with s1 | s1
      · obtain ⟨j', hj', t1, t2⟩ := forall2_mem_right g4 s1
        rw [s2] at t2
        cases t2
        rw [m2] at t1
        simp only [Prod.mk.injEq, true_and, Except.ok.injEq] at t1
        exact t1.symm
      · rw [List.mem_singleton] at s1
        subst s1
        rw [g3] at s2
        cases s2
  · obtain ⟨F, hjF⟩ := (hyp_vals g2.inv g2.hI g2.hJ g2.hs g2.hF j).1 hj
    show grossTable (.hyp j) k w' = grossTable (.fine i) k w'
    unfold grossTable
    rw [PyM.bind_ok (show PyM.get w' = (w', .ok w') from rfl), PyM.bind_ok (show PyM.get w' = (w', .ok w') from rfl)]
    show single (levelRow (w'.hf j).parent none true k) w' = _
    rw [hjF.par]
    rfl

/-- C123, Zeeman levels with the Zeeman strategy: drawn as in the table of their hyperfine level. -/
theorem C123_zeeman {w : World} {i j : Nat} {J : ℚ} {k : DrawKw} (h : DrawLevel w i J) (hk : DrawKw.Usual k) (h1 : 1 ≤ J + w.I)
    (hj : j ∈ (w.lv i).subs.vals) :
    ∃ w' rows, tableOf ⟨.hyp j, .zeeman, k⟩ w = (w', .ok rows) ∧ (w'.hf j).subs.vals ≠ [] ∧
      ∀ z ∈ (w'.hf j).subs.vals, ∃ r, tableOf ⟨.zee z, .zeeman, k⟩ w' = (w', .ok [r]) ∧ r ∈ rows ∧ r.level = .zee z ∧ r.shown = true ∧
        ∀ s ∈ rows, s.level = .zee z → s = r := by
  obtain ⟨F, hjF⟩ := (hyp_vals h.reach.subInv h.hI h.hJ h.hs h.hF j).1 hj
  have hD : Draw w i J := by
    obtain ⟨w1, e1, e2, -⟩ := lazyHF_ok h.reach.subInv.keys h.hI h.inA h.hJ h.hs h.hF
    have hne : (w.lv i).subs ≠ [] := by
      intro h0
      rw [h0] at hj
      cases hj
    unfold lazyHF at e1
    rw [if_neg (by simpa using hne)] at e1
    cases e1
    exact ⟨h.reach.subInv, h.hI, h.inA, h.hJ, h.hs, h.hF, e2⟩
  have hsq := sq_eq h.hI h.hs
  have hfl : (1 : ℤ) ≤ ⌊J + w.I⌋ := Int.le_floor.2 (by exact_mod_cast h1)
  have s0 : sq w.I J ≠ 0 := by omega
  have s1 : sq w.I J ≠ 1 := by omega
  have hsF := hfFs_spin h.hI h.hs hjF.mem
  obtain ⟨w', e1, e2, -⟩ := lazyZ_ok hD.inv.keys hjF.J hjF.F hsF
  have hfr : LFrame w w' := by
    have := lazyZ_frame j w
    rwa [e1] at this
  have hin : SubInv w' := by
    have := hD.inv.steps (lazyZ_steps (C := fun _ _ _ => True) j w)
    rwa [e1] at this
  have hlv : w'.lv = w.lv := by
    have := lazyZ_lv j w
    rwa [e1] at this
  have hD' := hD.frame hin hfr hlv
  have hj' := hjF.frame hfr hlv
  have hz := zee_zip hin hj'.F hsF e2
  obtain ⟨rs, e3, e4⟩ := rowsOf_const (f := fun z => do let r ← zRow z k; pure [r])
    (P := fun z r => zRow z k w' = (w', .ok r) ∧ r.level = .zee z ∧ r.shown = true) (w := w') (w'.hf j).subs.vals (by
      intro z hzm
      obtain ⟨m, hm⟩ := (zee_vals hin hj'.J hj'.F hsF z).1 hzm
      obtain ⟨r, g1, g2, -⟩ := zRow_ok hD' hj' hm hk.ok hk.sq (by rw [hfr.I]; exact s0) (by rw [hfr.I]; exact s1)
      refine ⟨r, ?_, g1, g2.level, g2.shown⟩
      rw [PyM.bind_ok g1]; rfl)
  have hne : (w'.hf j).subs.vals ≠ [] := by
    intro h2
    rw [h2] at hz
    cases hzz : zMs F with
    | nil => exact zMs_ne hsF hzz
    | cons a l => rw [hzz] at hz; cases hz
  have hrs : rs ≠ [] := by
    rintro rfl
    cases hv : (w'.hf j).subs.vals with
    | nil => exact hne hv
    | cons a l => rw [hv] at e4; cases e4
  obtain ⟨b, b1, b2⟩ := pts_box hrs
  obtain ⟨lo, -, -, hr, g1, g2, -⟩ := hRow_ok hD' hj' (some b) false hk.ok hk.sq
  refine ⟨w', rs ++ [hr], ?_, hne, fun z hzm => ?_⟩
  · show zTableH j k w = _
    unfold zTableH
    rw [PyM.bind_ok e1, PyM.bind_ok (show PyM.get w' = (w', .ok w') from rfl), PyM.bind_ok e3]
    rw [PyM.bind_ok (show PyM.lift (concatE (w'.hf j).subs.vals rs) w' = (w', .ok rs) by rw [concatE_ok hne]; rfl)]
    rw [PyM.bind_ok (show PyM.lift (bbox (rowPts rs) dfltPad) w' = (w', .ok b) by rw [b1]; rfl), PyM.bind_ok g1]
    rfl
  · obtain ⟨r, m1, m2, m3, m4⟩ := forall2_mem_left e4 hzm
    refine ⟨r, ?_, List.mem_append_left _ m1, m3, m4, fun s hs hl => ?_⟩
    · show single _ w' = _
      unfold single
      rw [PyM.bind_ok m2]; rfl
    · rcases List.mem_append.1 hs with hs | hs
      · obtain ⟨z', hz', t1, t2, -⟩ := forall2_mem_right e4 hs
        rw [hl] at t2
        cases t2
        rw [m2] at t1
        simp only [Prod.mk.injEq, true_and, Except.ok.injEq] at t1
        exact t1.symm
      · rw [List.mem_singleton] at hs
        subst hs
        rw [g2.level] at hl
        cases hl

/-- One level with `A = 4` GHz in an atom with `I = 1/2`; sublevels populated. -/
def aloneOps : List Op :=
  [.newLevel (demoTerm 'g') 0 2 4000000000 0 0 none, .addLevel 0 false none, .getLevel ("g 2S1/2 F=1 mF=0".toList)]

/-- The atom. -/
def aloneAtom : World := runAll aloneOps (emptyAtom (1/2) 0)

theorem aloneAtom_draw : DrawLevel aloneAtom 0 (1/2) :=
  ⟨(Reachable.empty (1/2) 0).runAll (by decide +kernel), ⟨1, by decide +kernel⟩, by decide +kernel, by decide +kernel, ⟨1, by norm_num⟩,
   by decide +kernel⟩

/-- Lines of a table. -/
def linesOf (r : World × Py (List DRow)) : List (Ref × Pt × Pt) := (r.2.toOption.getD []).map fun r => (r.level, r.p0, r.p1)

/-- The hyperfine levels are drawn at heights -30 and 10, the level itself (not shown) at 0. -/
theorem alone_lines : linesOf (tableOf ⟨.fine 0, .hyperfine, {}⟩ aloneAtom) =
    [(.hyp 0, (31/70, -30), (39/70, -30)), (.hyp 1, (23/70, 10), (47/70, 10)), (.fine 0, (1/10, 0), (9/10, 0))] := by decide +kernel

/-- The hypotheses of `C123_hyperfine_partial` are met. -/
example : linesOf (tableOf ⟨.hyp 1, .hyperfine, {}⟩ aloneAtom) = [(.hyp 1, (23/70, 10), (47/70, 10))] := by decide +kernel

/-- The hypotheses of `C123_zeeman` are met. -/
example : ∃ w' rows, tableOf ⟨.hyp 1, .zeeman, {}⟩ aloneAtom = (w', .ok rows) ∧ (w'.hf 1).subs.vals ≠ [] := by
  obtain ⟨w', rows, h1, h2, -⟩ := C123_zeeman (j := 1) aloneAtom_draw kw_usual (by decide +kernel) (by decide +kernel)
  exact ⟨w', rows, h1, h2⟩

/-- A Zeeman level of the hyperfine level at height 10 is drawn with the hyperfine strategy at height 0. -/
theorem alone_zeeman : linesOf (tableOf ⟨.zee 0, .hyperfine, {}⟩ aloneAtom) = [(.zee 0, (23/70, 0), (47/70, 0))] := by decide +kernel

/-- C123: a sublevel of any kind drawn with the gross strategy gives the line of the level it belongs to. -/
theorem C123_gross {w : World} (hw : Reachable w) {i j z : Nat} {f m : Str} (hj : (w.lv i).subs.get? f = some j)
    (hz : (w.hf j).subs.get? m = some z) (k : DrawKw) :
    tableOf ⟨.zee z, .gross, k⟩ w = tableOf ⟨.fine i, .gross, k⟩ w ∧ tableOf ⟨.hyp j, .gross, k⟩ w = tableOf ⟨.fine i, .gross, k⟩ w := by
  have h1 := (hw.subInv.subs.hfOf i f j hj).2.1
  have h2 := (hw.subInv.subs.zlOf j m z hz).2.1
  constructor
  · show grossTable _ k w = grossTable _ k w
    show single (levelRow (w.hf (w.zl z).parent).parent none true k) w = single (levelRow i none true k) w
    rw [h2, h1]
  · show grossTable _ k w = grossTable _ k w
    show single (levelRow (w.hf j).parent none true k) w = single (levelRow i none true k) w
    rw [h1]

/-- C123: a level drawn with the Zeeman strategy shows the Zeeman levels of all its hyperfine levels. -/
theorem C123_manifold {w : World} {i : Nat} {J : ℚ} {k : DrawKw} (h : DrawLevel w i J) (hk : DrawKw.Usual k) (h1 : 1 ≤ J + w.I) :
    ∃ w' rows, tableOf ⟨.fine i, .zeeman, k⟩ w = (w', .ok rows) ∧
      (∀ n : ℕ, |J - w.I| + n ≤ J + w.I → ∃ j ∈ (w'.lv i).subs.vals, (w'.hf j).term.F = some (|J - w.I| + n)) ∧
      ∀ j ∈ (w'.lv i).subs.vals, ∃ F, (w'.hf j).term.F = some F ∧ ZDrawn w' F (zRowsOf w' j rows) := by
  obtain ⟨w', rows, e1, e2, e3⟩ := C68_drawn_partial h hk h1
  refine ⟨w', rows, e1, e2, fun j hj => ?_⟩
  obtain ⟨F, f1, f2, -⟩ := e3 j hj
  exact ⟨F, f1, f2⟩

theorem groundF_ok {w : World} {g : Nat} {J : ℚ} (h : DrawLevel w g J) (hm : g ∈ w.g.levelAttrs.vals)
    (hl : ∀ i ∈ w.g.levelAttrs.vals, i ≠ g → w.eHz g < w.eHz i) (hs : (w.lv g).subs ≠ []) : groundF w = (w, .ok (J + w.I)) := by
  have h0 : levelsGetInt 0 w = .ok g := by
    obtain ⟨l, hp, hso, hk, -⟩ := C17_rank w
    have hne : 0 < l.length := List.length_pos_of_mem (hp.mem_iff.2 hm)
    have e := hk 0 hne
    by_cases hg : l[0] = g
    · rw [hg] at e; exact e
    · obtain ⟨⟨lo, e1, e2⟩, -⟩ := C17_extremes w g hm
      have e3 : lo = l[0] := by
        have := e1.symm.trans e
        exact Except.ok.inj this
      have := hl l[0] (hp.mem_iff.1 (List.getElem_mem hne)) hg
      rw [e3] at e2
      exact absurd e2 (not_le.2 this)
  unfold groundF
  rw [PyM.bind_ok (show PyM.get w = (w, .ok w) from rfl)]
  rw [PyM.bind_ok (show PyM.lift (levelsGetInt 0 w) w = (w, .ok g) by rw [h0]; rfl)]
  rw [PyM.bind_ok (show lazyHF g w = (w, .ok ()) by unfold lazyHF; rw [if_neg (by simpa using hs)])]
  rw [PyM.bind_ok (show PyM.get w = (w, .ok w) from rfl)]
  have hall := hyp_vals h.reach.subInv h.hI h.hJ h.hs h.hF
  have hmem : ∀ F, F ∈ ((w.lv g).subs.vals.filterMap fun j => (w.hf j).term.F) ↔ F ∈ hfFs w.I J := by
    intro F
    rw [List.mem_filterMap]
    constructor
    · rintro ⟨j, hj, hF⟩
      obtain ⟨F', hF'⟩ := (hall j).1 hj
      rw [hF'.F] at hF
      cases hF
      exact hF'.mem
    · intro hF
      rcases h.reach.subInv.keys.hf h.hI g J h.hJ h.hs h.hF with h0 | h0
      · exact absurd h0 hs
      · obtain ⟨j, hj⟩ := hyp_all h.reach.subInv h.hJ h.hI h.hs h.hF h0 hF
        exact ⟨j, (hall j).2 ⟨F, hj⟩, hj.F⟩
  have hmul := (C13_multiplet w.I J h.hI h.hs).1
  have htop : J + w.I ∈ hfFs w.I J := by
    rw [hmul]
    have := h.hI.nonneg
    have := h.hs.nonneg
    exact ⟨abs_le.2 ⟨by linarith, by linarith⟩, le_refl _, 0, by push_cast; ring⟩
  obtain ⟨m, m1, m2, m3⟩ := pyMax_ok (List.ne_nil_of_mem ((hmem _).2 htop))
  have : m = J + w.I := by
    refine le_antisymm ?_ (m3 _ ((hmem _).2 htop))
    exact ((hmul m).1 ((hmem m).1 m2)).2.1
  rw [m1, this]
  rfl

/-- C123: without squeezing the lines are scaled as if the largest `F` of the lowest level of the atom had been given. -/
theorem C123_unsqueezed {w : World} {g : Nat} {J : ℚ} (h : DrawLevel w g J) (hm : g ∈ w.g.levelAttrs.vals)
    (hl : ∀ i ∈ w.g.levelAttrs.vals, i ≠ g → w.eHz g < w.eHz i) (hs : (w.lv g).subs ≠ []) (k : DrawKw) :
    (∀ j, tableOf ⟨.hyp j, .hyperfine, { k with squeeze := .no }⟩ w = tableOf ⟨.hyp j, .hyperfine, { k with squeeze := .num (J + w.I) }⟩ w) ∧
      ∀ z, tableOf ⟨.zee z, .zeeman, { k with squeeze := .no }⟩ w = tableOf ⟨.zee z, .zeeman, { k with squeeze := .num (J + w.I) }⟩ w := by
  have key : ∀ i t, procKw i t { k with squeeze := .no } w = procKw i t { k with squeeze := .num (J + w.I) } w := by
    intro i t
    unfold procKw
    rw [PyM.bind_ok (show PyM.get w = (w, .ok w) from rfl), PyM.bind_ok (show PyM.get w = (w, .ok w) from rfl)]
    by_cases hi : (w.lv i).inAtom = false
    · rw [if_pos hi, if_pos hi]
    · rw [if_neg hi, if_neg hi]
      cases t.J with
      | none => rfl
      | some J' =>
        simp only [squeezeArg]
        rw [PyM.bind_ok (groundF_ok h hm hl hs), PyM.bind_ok (show (pure (J + w.I) : PyM ℚ) w = (w, .ok (J + w.I)) from rfl)]
  have bnd : ∀ {α β : Type} (m m' : PyM α) (f : α → PyM β), m w = m' w → (m >>= f) w = (m' >>= f) w := by
    intro α β m m' f e
    show PyM.bind' m f w = PyM.bind' m' f w
    unfold PyM.bind'
    rw [e]
  constructor
  · intro j
    show single _ w = single _ w
    unfold single
    refine bnd _ _ _ ?_
    unfold hRow
    rw [PyM.bind_ok (show PyM.get w = (w, .ok w) from rfl), PyM.bind_ok (show PyM.get w = (w, .ok w) from rfl)]
    exact bnd _ _ _ (key _ _)
  · intro z
    show single _ w = single _ w
    unfold single
    refine bnd _ _ _ ?_
    unfold zRow
    rw [PyM.bind_ok (show PyM.get w = (w, .ok w) from rfl), PyM.bind_ok (show PyM.get w = (w, .ok w) from rfl)]
    exact bnd _ _ _ (key _ _)

/-- The hypotheses are met: `levels['g'] F=1 mF=0` drawn as its level; the lowest of two levels with `J = 1/2` and `I = 3/2`. -/
example : tableOf ⟨.zee 1, .gross, {}⟩ aloneAtom = tableOf ⟨.fine 0, .gross, {}⟩ aloneAtom :=
  (C123_gross (i := 0) (j := 1) (f := "F=1".toList) (m := "mF=0".toList) aloneAtom_draw.reach (by decide +kernel) (by decide +kernel) {}).1

example : tableOf ⟨.hyp 0, .hyperfine, { squeeze := .no }⟩ dAtom = tableOf ⟨.hyp 0, .hyperfine, { squeeze := .num (1/2 + dAtom.I) }⟩ dAtom :=
  (C123_unsqueezed dAtom_draw (by decide +kernel) (by decide +kernel) (by decide +kernel) {}).1 0

theorem C123_fails : ¬C123_full := by
  intro h
  obtain ⟨w', rows, h1, -, h2⟩ := h aloneAtom 0 (1/2) {} aloneAtom_draw kw_usual rfl
  have hw : (tableOf ⟨.fine 0, .hyperfine, {}⟩ aloneAtom).1 = aloneAtom := by
    show (hTableF 0 {} aloneAtom).1 = aloneAtom
    obtain ⟨w2, rs, fr, g1, -, -, g2, -⟩ := hTableF_rows aloneAtom_draw kw_usual
    rw [g1]
    exact g2 (by decide +kernel)
  rw [h1] at hw
  subst hw
  obtain ⟨r, s, e, a1, ⟨a2, a3⟩, a4, a5⟩ := h2 0 ⟨1, by decide +kernel, by decide +kernel⟩
  have b1 := alone_zeeman
  have b2 := alone_lines
  rw [a1] at b1
  rw [h1] at b2
  have b3 : r.p0.2 = 0 := by
    simp only [linesOf, Except.toOption, Option.getD_some, List.map_cons, List.map_nil, List.cons.injEq, Prod.mk.injEq, and_true] at b1
    rw [b1.2.1]
  have b4 : (s.level, s.p0, s.p1) ∈ linesOf (aloneAtom, Except.ok rows) := List.mem_map.2 ⟨s, a2, rfl⟩
  rw [b2, show s.level = Ref.hyp 1 by rw [a3]; decide +kernel] at b4
  have b5 : s.p0.2 = 10 := by
    simp only [List.mem_cons, Prod.mk.injEq, List.not_mem_nil, or_false, Ref.hyp.injEq, reduceCtorEq, false_and] at b4
    rcases b4 with b4 | b4
    · exact absurd b4 (by simp)
    · rw [b4.2.1]
  have b6 : e = 1000000000 := by
    have : aloneAtom.zHz 0 = .ok 1000000000 := by decide +kernel
    rw [this] at a4
    exact (Except.ok.inj a4).symm
  have b7 : aloneAtom.eHz 0 = 0 := by decide +kernel
  rw [b3, b5, b6, b7] at a5
  rcases a5 with a5 | a5
  · norm_num at a5
  · norm_num at a5

/-- `C121_not_drawn_raises`: an arrow to a hyperfine level of a diagram without lines. -/
example : aloneAtom.computeArrow [] (.pair (.hyp 0) (.hyp 1)) {} = .error .ValueError := by decide +kernel

/-- `C121_aims_partial`: only the level is drawn, and the arrow between its sublevels starts and ends at its line. -/
example : (render (.new [⟨.fine 0, .gross, {}⟩] [(.pair (.hyp 0) (.zee 0), { startAnchor := .num 4, endAnchor := .num 6 })]) aloneAtom).2.2 =
    .ok ⟨[((1/10, 0), (9/10, 0))], [((1/20, 0), (19/20, 0))]⟩ := by decide +kernel

/-! ## C124 -/

/-- The two brackets of a line: down the left and the right side of its box, with ticks of length `h` pointing inwards, both in the
colour asked for. -/
structure BracketsOf (r : Box × BoxKw) (l : List (List Pt × Option Colour)) : Prop where
  shape : ∃ p q c d, l = [(p, c), (q, d)] ∧ c = some r.2.colour ∧ d = some r.2.colour ∧
    p = [(r.1.x0 + r.2.h, r.1.y0), (r.1.x0, r.1.y0), (r.1.x0, r.1.y1), (r.1.x0 + r.2.h, r.1.y1)] ∧
    q = [(r.1.x1 - r.2.h, r.1.y0), (r.1.x1, r.1.y0), (r.1.x1, r.1.y1), (r.1.x1 - r.2.h, r.1.y1)]

/-- The full claim: every line with `bbox='bracket'` gets its two brackets in its colour, in the order of the lines, and there are no
others. -/
def C124_full : Prop := ∀ rows : List (Box × BoxKw), ∃ parts, drawnBrackets rows = parts.flatten ∧
  List.Forall₂ BracketsOf (rows.filter fun r => r.2.kind = .bracket) parts

theorem cycle_const (c : Colour) (all : List Colour) (ha : ∀ d ∈ all, d = c) (hne : all ≠ []) (ls : List (List Pt)) :
    ∀ cs : List Colour, (∀ d ∈ cs, d = c) → cycleColours all cs ls = ls.map fun l => (l, some c) := by
  induction ls with
  | nil => intro cs _; cases cs <;> rfl
  | cons l ls ih =>
    intro cs hcs
    cases cs with
    | nil =>
      cases all with
      | nil => exact absurd rfl hne
      | cons d ds =>
        show (l, some d) :: cycleColours (d :: ds) ds ls = _
        rw [ih ds fun x hx => ha x (by simp [hx]), ha d (by simp)]
        rfl
    | cons d ds =>
      show (l, some d) :: cycleColours all ds ls = _
      rw [ih ds fun x hx => hcs x (by simp [hx]), hcs d (by simp)]
      rfl

/-- C124 when all boxes are to have the same colour.  Missing: different colours, `C124_fails`. -/
theorem C124_same_colour_partial {rows : List (Box × BoxKw)} {c : Colour} (h : ∀ r ∈ rows, r.2.kind ≠ .none → r.2.colour = c) :
    ∃ parts, drawnBrackets rows = parts.flatten ∧ List.Forall₂ BracketsOf (rows.filter fun r => r.2.kind = .bracket) parts := by
  have hc : ∀ d ∈ bracketColours rows, d = c := by
    intro d hd
    obtain ⟨r, h1, rfl⟩ := List.mem_map.1 hd
    obtain ⟨h1, h2⟩ := List.mem_filter.1 h1
    exact h r h1 (by simpa using h2)
  have e : drawnBrackets rows = (bracketList rows).map fun l => (l, some c) := by
    by_cases hne : bracketColours rows = []
    · have hz : bracketList rows = [] := by
        unfold bracketList
        rw [List.flatMap_eq_nil_iff]
        intro r hr
        rw [if_neg]
        intro hk
        have : r.2.colour ∈ bracketColours rows := List.mem_map.2 ⟨r, List.mem_filter.2 ⟨hr, by simp [hk]⟩, rfl⟩
        rw [hne] at this
        cases this
      unfold drawnBrackets
      rw [hz]
      cases bracketColours rows <;> rfl
    · exact cycle_const c _ hc hne _ _ hc
  refine ⟨(rows.filter fun r => r.2.kind = .bracket).map fun r => (brackets r.1 r.2.h).map fun l => (l, some c), ?_, ?_⟩
  · rw [e]
    clear e hc h
    induction rows with
    | nil => rfl
    | cons r rows ih =>
      unfold bracketList at ih ⊢
      by_cases hk : r.2.kind = .bracket
      · rw [List.filter_cons_of_pos (by simpa using hk), List.flatMap_cons, if_pos hk, List.map_append, List.map_cons, List.flatten_cons, ih]
      · rw [List.filter_cons_of_neg (by simpa using hk), List.flatMap_cons, if_neg hk, List.nil_append, ih]
  · have : ∀ r ∈ rows.filter (fun r => r.2.kind = .bracket), r.2.colour = c := by
      intro r hr
      obtain ⟨h1, h2⟩ := List.mem_filter.1 hr
      exact h r h1 (by simp at h2; simp [h2])
    revert this
    generalize rows.filter (fun r => r.2.kind = .bracket) = l
    intro this
    induction l with
    | nil => exact .nil
    | cons r l ih =>
      refine .cons ⟨_, _, _, _, rfl, ?_, ?_, rfl, rfl⟩ (ih fun x hx => this x (by simp [hx]))
      · rw [this r (by simp)]
      · rw [this r (by simp)]

/-- C124: the brackets themselves, whatever the colours: as many as asked for, in order, at the sides of the boxes. -/
theorem C124_places (rows : List (Box × BoxKw)) : (drawnBrackets rows).map (·.1) =
    (rows.filter fun r => r.2.kind = .bracket).flatMap fun r =>
      [[(r.1.x0 + r.2.h, r.1.y0), (r.1.x0, r.1.y0), (r.1.x0, r.1.y1), (r.1.x0 + r.2.h, r.1.y1)],
       [(r.1.x1 - r.2.h, r.1.y0), (r.1.x1, r.1.y0), (r.1.x1, r.1.y1), (r.1.x1 - r.2.h, r.1.y1)]] := by
  have key : ∀ (all : List Colour) (ls : List (List Pt)) (cs : List Colour), (cycleColours all cs ls).map (·.1) = ls := by
    intro all ls
    induction ls with
    | nil => intro cs; cases cs <;> rfl
    | cons l ls ih =>
      intro cs
      cases cs with
      | cons d ds =>
        show l :: (cycleColours all ds ls).map (·.1) = _
        rw [ih]
      | nil =>
        cases all with
        | nil =>
          show l :: (cycleColours [] [] ls).map (·.1) = _
          rw [ih]
        | cons d ds =>
          show l :: (cycleColours (d :: ds) ds ls).map (·.1) = _
          rw [ih]
  unfold drawnBrackets
  rw [key]
  induction rows with
  | nil => rfl
  | cons r rows ih =>
    unfold bracketList at ih ⊢
    by_cases hk : r.2.kind = .bracket
    · rw [List.filter_cons_of_pos (by simpa using hk), List.flatMap_cons, if_pos hk, List.flatMap_cons, ih]
      rfl
    · rw [List.filter_cons_of_neg (by simpa using hk), List.flatMap_cons, if_neg hk, List.nil_append, ih]

/-- C124: every line with `bbox='rect'` gets a rectangle in its colour whose opposite corners are those of the box; there are no others. -/
theorem C124_rectangles (rows : List (Box × BoxKw)) : List.Forall₂ (fun r (t : Pt × ℚ × ℚ × Option Colour) =>
    t.1 = (r.1.x0, r.1.y0) ∧ (t.1.1 + t.2.1, t.1.2 + t.2.2.1) = (r.1.x1, r.1.y1) ∧ t.2.2.2 = r.2.rectColour)
    (rows.filter fun r => r.2.kind = .rect) (rectList rows) := by
  unfold rectList
  generalize rows.filter (fun r => r.2.kind = .rect) = l
  induction l with
  | nil => exact .nil
  | cons r l ih => exact .cons ⟨rfl, by simp, rfl⟩ ih

/-- Two lines with brackets, red and blue. -/
def redBlue : List (Box × BoxKw) :=
  [(⟨0, 0, 1, 1⟩, { kind := .bracket, colour := (1, 0, 0, 1) }), (⟨0, 2, 1, 3⟩, { kind := .bracket, colour := (0, 0, 1, 1) })]

/-- The left brackets of both are red, the right ones blue. -/
theorem C124_mixed : (drawnBrackets redBlue).map (·.2) = [some (1, 0, 0, 1), some (0, 0, 1, 1), some (1, 0, 0, 1), some (0, 0, 1, 1)] := by
  decide +kernel

theorem C124_fails : ¬C124_full := by
  intro h
  obtain ⟨parts, h1, h2⟩ := h redBlue
  have h3 : redBlue.filter (fun r => r.2.kind = .bracket) = redBlue := by
    simp [redBlue]
  rw [h3] at h2
  unfold redBlue at h2
  cases h2 with
  | cons h4 h5 =>
    cases h5 with
    | cons h5 h6 =>
      cases h6
      obtain ⟨p, q, c, d, rfl, rfl, rfl, -⟩ := h4.shape
      obtain ⟨p', q', c', d', rfl, rfl, rfl, -⟩ := h5.shape
      have h7 := C124_mixed
      rw [h1] at h7
      simp at h7

/-- The hypotheses of `C124_same_colour_partial` are met by two lines with the default colour. -/
example : drawnBrackets [(⟨0, 0, 1, 1⟩, { kind := .bracket, h := 1/4 }), (⟨0, 0, 1, 1⟩, { kind := .rect }), (⟨0, 2, 1, 3⟩, {})] =
    [([(1/4, 0), (0, 0), (0, 1), (1/4, 1)], some (0, 0, 0, 4/5)), ([(3/4, 0), (1, 0), (1, 1), (3/4, 1)], some (0, 0, 0, 4/5))] := by
  decide +kernel

end AtomTk
