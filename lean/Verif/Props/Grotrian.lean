import Verif.Proofs.Grotrian
import Verif.Props.SubTrans

/-!
# Grotrian diagrams: C68, C77, C78
-/

namespace AtomTk
open World

/-! ## C68 -/

/-- The rows that draw the Zeeman sublevels of hyperfine level `j`. -/
def zRowsOf (w : World) (j : Nat) (rows : List DRow) : List DRow :=
  rows.filter fun r => match r.level with
    | .zee z => (w.zl z).parent = j
    | _ => false

/-- The `mF` of the level a row draws. -/
def mOf (w : World) (r : DRow) : Option ℚ :=
  match r.level with
  | .zee z => (w.zl z).term.mF
  | _ => none

/-- The sublevels of one hyperfine level are drawn once each, as disjoint segments in the order of `mF`. -/
structure ZDrawn (w : World) (F : ℚ) (rs : List DRow) : Prop where
  ms : ∃ n : ℕ, (n : ℚ) = 2 * F + 1 ∧ rs.map (mOf w) = (List.range n).map fun t : ℕ => some (-F + t)
  seg : ∀ r ∈ rs, r.p0.1 < r.p1.1 ∧ r.p0.2 = r.p1.2 ∧ r.shown = true
  order : rs.Pairwise fun r s => r.p1.1 < s.p0.1

/-- The rows go from `a` to `b`. -/
def Spans (rs : List DRow) (a b : ℚ) : Prop := rs.head?.map (·.p0.1) = some a ∧ rs.getLast?.map (·.p1.1) = some b

/-- Keyword arguments for which the claim is made: a positive width, a fill factor between 0 and 1, the default of `squeeze`. -/
structure DrawKw.Usual (k : DrawKw) : Prop where
  ok : DrawKw.Ok k
  sq : k.squeeze = .dflt ∨ k.squeeze = .yes
  width : 0 < k.width
  fill0 : 0 < k.fill
  fill1 : k.fill < 1

/-- A level of an atom whose `J` is a spin. -/
structure DrawLevel (w : World) (i : Nat) (J : ℚ) : Prop where
  reach : Reachable w
  hI : IsSpin w.I
  inA : (w.lv i).inAtom = true
  hJ : (w.lv i).term.J = some J
  hs : IsSpin J
  hF : (w.lv i).term.F = none

/-- The full claim. -/
def C68_full : Prop := ∀ (w : World) (i : Nat) (J : ℚ) (k : DrawKw), DrawLevel w i J → DrawKw.Usual k →
  ∃ w' rows, zTableF i k w = (w', .ok rows) ∧ ∀ j ∈ (w'.lv i).subs.vals, ∃ F, (w'.hf j).term.F = some F ∧ ZDrawn w' F (zRowsOf w' j rows) ∧
    (F = J + w.I → Spans (zRowsOf w' j rows) (k.x0.getD J + k.x1 - k.width / 2) (k.x0.getD J + k.x1 + k.width / 2))

theorem forall2_pairwise {α β : Type} {P : α → β → Prop} {R : α → α → Prop} {S : β → β → Prop}
    (h : ∀ a b r s, R a b → P a r → P b s → S r s) {l : List α} {rs : List β} (hp : l.Pairwise R) (hf : List.Forall₂ P l rs) : rs.Pairwise S := by
  induction hf with
  | nil => exact .nil
  | @cons a r l rs h1 h2 ih =>
    rw [List.pairwise_cons] at hp ⊢
    refine ⟨fun s hs => ?_, ih hp.2⟩
    obtain ⟨b, hb, hbs⟩ : ∃ b ∈ l, P b s := by
      clear ih hp
      induction h2 with
      | nil => cases hs
      | @cons b r' l' rs' g1 g2 ih =>
        rcases List.mem_cons.1 hs with rfl | hs
        · exact ⟨b, List.mem_cons_self, g1⟩
        · obtain ⟨c, hc, hcs⟩ := ih hs
          exact ⟨c, List.mem_cons_of_mem _ hc, hcs⟩
    exact h _ _ _ _ (hp.1 b hb) h1 hbs

theorem zMs_range {F : ℚ} (hF : IsSpin F) : ∃ n : ℕ, (n : ℚ) = 2 * F + 1 ∧ zMs F = (List.range n).map fun t : ℕ => -F + (t : ℚ) := by
  obtain ⟨n, h1, h2⟩ := spin_count_m hF
  exact ⟨n, h2, arange_nat _ _ n h1⟩

theorem filter_none (w : World) (j : Nat) (l : List DRow) (h : ∀ r ∈ l, ∀ z, r.level = .zee z → (w.zl z).parent ≠ j) : zRowsOf w j l = [] := by
  unfold zRowsOf
  rw [List.filter_eq_nil_iff]
  intro r hr
  split
  · rename_i z hz
    simpa using h r hr z hz
  · simp

theorem filter_all (w : World) (j : Nat) (l : List DRow) (h : ∀ r ∈ l, ∃ z, r.level = .zee z ∧ (w.zl z).parent = j) : zRowsOf w j l = l := by
  unfold zRowsOf
  rw [List.filter_eq_self]
  intro r hr
  obtain ⟨z, h1, h2⟩ := h r hr
  rw [h1]
  simpa using h2

theorem zRowsOf_append (w : World) (j : Nat) (a b : List DRow) : zRowsOf w j (a ++ b) = zRowsOf w j a ++ zRowsOf w j b := by
  unfold zRowsOf
  exact List.filter_append ..

theorem forall2_mem_right {α β : Type} {P : α → β → Prop} {l : List α} {rs : List β} (h : List.Forall₂ P l rs) {r : β} (hr : r ∈ rs) :
    ∃ a ∈ l, P a r := by
  induction h with
  | nil => cases hr
  | @cons a b l rs h1 h2 ih =>
    rcases List.mem_cons.1 hr with rfl | hr
    · exact ⟨a, List.mem_cons_self, h1⟩
    · obtain ⟨c, hc, hcs⟩ := ih hr
      exact ⟨c, List.mem_cons_of_mem _ hc, hcs⟩

theorem forall2_mem_left {α β : Type} {P : α → β → Prop} {l : List α} {rs : List β} (h : List.Forall₂ P l rs) {a : α} (ha : a ∈ l) :
    ∃ r ∈ rs, P a r := by
  induction h with
  | nil => cases ha
  | @cons a' b l rs h1 h2 ih =>
    rcases List.mem_cons.1 ha with rfl | ha
    · exact ⟨b, List.mem_cons_self, h1⟩
    · obtain ⟨c, hc, hcs⟩ := ih ha
      exact ⟨c, List.mem_cons_of_mem _ hc, hcs⟩

/-- The rows of one hyperfine level among all. -/
theorem zRowsOf_parts {k : DrawKw} {i : Nat} {I J : ℚ} {w : World} {js : List Nat} {parts : List (List DRow)}
    (h : List.Forall₂ (fun j rs => ZPart k i I J j w rs) js parts) (hn : js.Nodup) {j : Nat} (hj : j ∈ js) :
    ∃ F, F ∈ hfFs I J ∧ (w.hf j).term.F = some F ∧ List.Forall₂ (fun m r => ∃ z, ((z < w.nzl ∧ ZHeight w k z r) ∧ (w.zl z).term.mF = some m ∧ (w.zl z).parent = j) ∧
      ZRowIs k (k.x0.getD J) k.x1 (World.sq I J) z m r) (zMs F) (zRowsOf w j parts.flatten) := by
  have other : ∀ j' rs, ZPart k i I J j' w rs → j' ≠ j → zRowsOf w j rs = [] := by
    rintro j' rs ⟨F, zr, hr, -, -, rfl, h6, -, -, h9⟩ hne
    apply filter_none
    intro r hr' z hz
    rcases List.mem_append.1 hr' with hr' | hr'
    · obtain ⟨m, -, z', ⟨-, -, g⟩, g'⟩ := forall2_mem_right h9 hr'
      have := g'.level
      rw [hz] at this
      cases this
      rw [g]; exact hne
    · rw [List.mem_singleton] at hr'
      subst hr'
      rw [h6] at hz
      cases hz
  induction h with
  | nil => cases hj
  | @cons a rs js parts h1 h2 ih =>
    rw [List.flatten_cons, zRowsOf_append]
    rw [List.nodup_cons] at hn
    by_cases ha : a = j
    · subst ha
      have htail : zRowsOf w a parts.flatten = [] := by
        clear ih
        have hna := hn.1
        clear hn hj h1
        induction h2 with
        | nil => rfl
        | @cons b rs' js' parts' g1 g2 ih =>
          rw [List.flatten_cons, zRowsOf_append, other b rs' g1 (fun hb => hna (hb ▸ List.mem_cons_self)),
            ih fun hm => hna (List.mem_cons_of_mem _ hm)]
          rfl
      rw [htail, List.append_nil]
      obtain ⟨F, zr, hr, h1, ⟨h2, h3, h4⟩, rfl, h6, h7, h8, h9⟩ := h1
      refine ⟨F, h1, h3, ?_⟩
      rw [zRowsOf_append, filter_all w a zr, filter_none w a [hr], List.append_nil]
      · exact h9
      · intro r hr' z hz
        rw [List.mem_singleton] at hr'
        subst hr'
        rw [h6] at hz
        cases hz
      · intro r hr'
        obtain ⟨m, -, z', ⟨-, -, g⟩, g'⟩ := forall2_mem_right h9 hr'
        exact ⟨z', g'.level, g⟩
    · rw [other a rs h1 ha, List.nil_append]
      exact ih hn.2 ((List.mem_cons.1 hj).resolve_left fun h => ha h.symm)

theorem vals_nodup {w : World} {i : Nat} {J : ℚ} (h : Draw w i J) : (w.lv i).subs.vals.Nodup := by
  have h1 := hyp_zip h
  have h2 : (hfFs w.I J).Nodup := by
    have := hfKeys_nodup h.hI h.hs
    exact List.Nodup.of_map _ this
  generalize (w.lv i).subs.vals = l at h1
  generalize hfFs w.I J = fs at h1 h2
  induction h1 with
  | nil => exact .nil
  | @cons j F l fs g1 g2 ih =>
    rw [List.nodup_cons] at h2 ⊢
    refine ⟨fun hm => h2.1 ?_, ih h2.2⟩
    clear ih h2
    induction g2 with
    | nil => cases hm
    | @cons j' F' l' fs' k1 k2 ih =>
      rcases List.mem_cons.1 hm with rfl | hm
      · have := k1.F
        rw [g1.F] at this
        cases this
        exact List.mem_cons_self
      · exact List.mem_cons_of_mem _ (ih hm)

theorem forall2_head {α β : Type} {P : α → β → Prop} {l : List α} {rs : List β} (h : List.Forall₂ P l rs) {a : α} (ha : l.head? = some a) :
    ∃ r, rs.head? = some r ∧ P a r := by
  cases h with
  | nil => cases ha
  | cons h1 h2 => cases ha; exact ⟨_, rfl, h1⟩

theorem forall2_last {α β : Type} {P : α → β → Prop} {l : List α} {rs : List β} (h : List.Forall₂ P l rs) {a : α} (ha : l.getLast? = some a) :
    ∃ r, rs.getLast? = some r ∧ P a r := by
  rw [← List.head?_reverse] at ha
  obtain ⟨r, h1, h2⟩ := forall2_head (List.forall₂_reverse_iff.2 h) ha
  rw [List.head?_reverse] at h1
  exact ⟨r, h1, h2⟩

/-- The first and last `mF`. -/
theorem zMs_ends {F : ℚ} (hF : IsSpin F) : (zMs F).head? = some (-F) ∧ (zMs F).getLast? = some F := by
  obtain ⟨n, h1, h2⟩ := zMs_range hF
  have h0 := hF.nonneg
  obtain ⟨n', rfl⟩ : ∃ n', n = n' + 1 := by
    cases n with
    | zero => simp at h1; linarith
    | succ n' => exact ⟨n', rfl⟩
  rw [h2]
  constructor
  · rw [List.range_succ_eq_map]; simp
  · rw [List.range_succ]
    simp only [List.map_append, List.map_cons, List.map_nil, List.getLast?_append, List.getLast?_singleton, Option.some_or, Option.some.injEq]
    push_cast at h1
    linarith

/-- The drawn rows. -/
theorem zDrawn_of {k : DrawKw} (hk : DrawKw.Usual k) {w : World} {I J F : ℚ} {j : Nat} (hI : IsSpin I) (hJ : IsSpin J) (hF : IsSpin F)
    (h1 : 1 ≤ J + I) {rs : List DRow}
    (h : List.Forall₂ (fun m r => ∃ z, ((z < w.nzl ∧ ZHeight w k z r) ∧ (w.zl z).term.mF = some m ∧ (w.zl z).parent = j) ∧
      ZRowIs k (k.x0.getD J) k.x1 (World.sq I J) z m r) (zMs F) rs) : ZDrawn w F rs := by
  have hfl : 1 ≤ ⌊J + I⌋ := Int.le_floor.2 (by exact_mod_cast h1)
  have hs : (3 : ℚ) ≤ (World.sq I J : ℤ) := by
    rw [sq_eq hI hJ]
    exact_mod_cast (by omega : (3 : ℤ) ≤ 2 * ⌊J + I⌋ + 1)
  have hsub : 0 < k.fill * k.width / (World.sq I J : ℤ) := div_pos (mul_pos hk.fill0 hk.width) (by linarith)
  have hspa : 0 < (1 - k.fill) * k.width / ((World.sq I J : ℤ) - 1 : ℚ) :=
    div_pos (mul_pos (by linarith [hk.fill1]) hk.width) (by linarith)
  obtain ⟨n, n1, n2⟩ := zMs_range hF
  refine ⟨⟨n, n1, ?_⟩, ?_, ?_⟩
  · have : rs.map (mOf w) = (zMs F).map some := by
      clear n2
      generalize zMs F = l at h
      induction h with
      | nil => rfl
      | @cons m r l rs g1 g2 ih =>
        obtain ⟨z, ⟨-, e1, -⟩, e2⟩ := g1
        rw [List.map_cons, List.map_cons, ih]
        congr 1
        unfold mOf
        rw [e2.level]
        exact e1
    rw [this, n2, List.map_map]
    rfl
  · intro r hr
    obtain ⟨m, -, z, -, g⟩ := forall2_mem_right h hr
    refine ⟨?_, g.flat, g.shown⟩
    rw [g.l, g.r]
    linarith
  · refine forall2_pairwise (R := fun m m' => m + 1 ≤ m') ?_ ?_ h
    · rintro m m' r s hm ⟨z, -, g⟩ ⟨z', -, g'⟩
      rw [g.r, g'.l]
      nlinarith
    · rw [n2, List.pairwise_map]
      refine List.Pairwise.imp ?_ List.pairwise_lt_range
      intro a b hab
      have : (a : ℚ) + 1 ≤ b := by exact_mod_cast hab
      linarith

/-- C68 for `I + J` at least 1: no exception, and the sublevels of each hyperfine level are drawn as disjoint segments in the order
of `mF`.  If `I + J` is an integer the outermost one has the requested width; otherwise it is wider.  Missing: `I + J < 1`, where
the code divides by zero, and the width for half-integers, see `C68_fails` and `C68_width_fails`. -/
theorem C68_drawn_partial {w : World} {i : Nat} {J : ℚ} {k : DrawKw} (h : DrawLevel w i J) (hk : DrawKw.Usual k) (h1 : 1 ≤ J + w.I) :
    ∃ w' rows, zTableF i k w = (w', .ok rows) ∧ (∀ n : ℕ, |J - w.I| + n ≤ J + w.I → ∃ j ∈ (w'.lv i).subs.vals, (w'.hf j).term.F = some (|J - w.I| + n)) ∧
      ∀ j ∈ (w'.lv i).subs.vals, ∃ F, (w'.hf j).term.F = some F ∧ ZDrawn w' F (zRowsOf w' j rows) ∧
        (F = J + w.I → (∀ N : ℤ, J + w.I = N → Spans (zRowsOf w' j rows) (k.x0.getD J + k.x1 - k.width / 2) (k.x0.getD J + k.x1 + k.width / 2)) ∧
          ∀ N : ℤ, J + w.I = N + 1/2 → ∃ a b, Spans (zRowsOf w' j rows) a b ∧ a < k.x0.getD J + k.x1 - k.width / 2 ∧
            k.x0.getD J + k.x1 + k.width / 2 < b) := by
  have hfl : 1 ≤ ⌊J + w.I⌋ := Int.le_floor.2 (by exact_mod_cast h1)
  have hsq := sq_eq h.hI h.hs
  obtain ⟨w', parts, fr, e1, e2, e3, e4, e5, e6, e7⟩ := zTableF_ok h.reach.subInv h.hI h.inA h.hJ h.hs h.hF hk.ok hk.sq
    (by rw [hsq]; omega) (by rw [hsq]; omega)
  refine ⟨w', _, e1, ?_, ?_⟩
  · intro n hn
    obtain ⟨N, n1, n2⟩ := spin_count h.hI h.hs
    have hm : |J - w.I| + (n : ℚ) ∈ hfFs w'.I J := by
      rw [e3.I]
      unfold hfFs
      rw [arange_nat _ _ N n1]
      refine List.mem_map.2 ⟨n, List.mem_range.2 ?_, rfl⟩
      have : (n : ℚ) < N := by linarith
      exact_mod_cast this
    obtain ⟨j, hj⟩ := hyp_all e2.inv e2.hJ e2.hI e2.hs e2.hF e2.keys hm
    exact ⟨j, (hyp_vals e2.inv e2.hI e2.hJ e2.hs e2.hF j).2 ⟨_, hj⟩, hj.F⟩
  · intro j hj
    have hfine : zRowsOf w' j [fr] = [] := by
      apply filter_none
      intro r hr z hz
      rw [List.mem_singleton] at hr
      subst hr
      rw [e4] at hz
      cases hz
    rw [zRowsOf_append, hfine, List.append_nil]
    obtain ⟨F, f1, f2, f3⟩ := zRowsOf_parts e7 (vals_nodup e2) hj
    have hsF := hfFs_spin h.hI h.hs f1
    refine ⟨F, f2, zDrawn_of hk h.hI h.hs hsF h1 f3, ?_⟩
    rintro rfl
    obtain ⟨m1, m2⟩ := zMs_ends hsF
    obtain ⟨r1, a1, z1, -, b1⟩ := forall2_head f3 m1
    obtain ⟨r2, a2, z2, -, b2⟩ := forall2_last f3 m2
    have hspan : Spans (zRowsOf w' j parts.flatten) r1.p0.1 r2.p1.1 := ⟨by rw [a1]; rfl, by rw [a2]; rfl⟩
    constructor
    · intro N hN
      have hs : ((World.sq w.I J : ℤ) : ℚ) = 2 * (J + w.I) + 1 := by
        rw [hsq, hN, Int.floor_intCast]; push_cast; ring
      have g1 := b1.l
      have g2 := b2.r
      rw [hs] at g1 g2
      have d1 : (2 * (J + w.I) + 1) ≠ 0 := by linarith
      have d2 : (J + w.I) ≠ 0 := by linarith
      have key : (J + w.I) * (k.fill * k.width / (2 * (J + w.I) + 1) + (1 - k.fill) * k.width / (2 * (J + w.I) + 1 - 1)) +
          k.fill * k.width / (2 * (J + w.I) + 1) / 2 = k.width / 2 := by
        rw [add_sub_cancel_right]
        field_simp
        ring
      have q1 : r1.p0.1 = k.x0.getD J + k.x1 - k.width / 2 := by rw [g1]; linarith
      have q2 : r2.p1.1 = k.x0.getD J + k.x1 + k.width / 2 := by rw [g2]; linarith
      rw [← q1, ← q2]
      exact hspan
    · intro N hN
      have hNf : ⌊J + w.I⌋ = N := by
        rw [hN, Int.floor_eq_iff]; constructor <;> linarith
      have hs : ((World.sq w.I J : ℤ) : ℚ) = 2 * (J + w.I) := by
        rw [hsq, hNf, hN]; push_cast; ring
      have g1 := b1.l
      have g2 := b2.r
      rw [hs] at g1 g2
      have p1 : 0 < 2 * (J + w.I) := by linarith
      have p2 : 0 < 2 * (J + w.I) - 1 := by linarith
      have hf := mul_pos hk.fill0 hk.width
      have hf1 := mul_pos (by linarith [hk.fill1] : 0 < 1 - k.fill) hk.width
      have key : k.width / 2 < (J + w.I) * (k.fill * k.width / (2 * (J + w.I)) + (1 - k.fill) * k.width / (2 * (J + w.I) - 1)) +
          k.fill * k.width / (2 * (J + w.I)) / 2 := by
        have t1 : (J + w.I) * (k.fill * k.width / (2 * (J + w.I))) = k.fill * k.width / 2 := by
          have : (J + w.I) ≠ 0 := by linarith
          field_simp
        have t2 : (1 - k.fill) * k.width / 2 < (J + w.I) * ((1 - k.fill) * k.width / (2 * (J + w.I) - 1)) := by
          rw [mul_div_assoc', div_lt_div_iff₀ (by norm_num) p2]
          nlinarith
        have t3 : 0 < k.fill * k.width / (2 * (J + w.I)) := div_pos hf p1
        rw [mul_add, t1]
        linarith
      refine ⟨_, _, hspan, ?_, ?_⟩
      · rw [g1]; linarith
      · rw [g2]; linarith

/-- For `I + J < 1` the strategy always raises. -/
theorem C68_small_raises {w : World} {i : Nat} {J : ℚ} {k : DrawKw} (h : DrawLevel w i J) (hk : DrawKw.Usual k) (h1 : J + w.I < 1) :
    (zTableF i k w).2 = .error .ZeroDivisionError := by
  have hsq : World.sq w.I J = 1 := by
    rw [sq_eq h.hI h.hs]
    have : ⌊J + w.I⌋ = 0 := by
      rw [Int.floor_eq_iff]
      have := h.hI.nonneg
      have := h.hs.nonneg
      constructor <;> push_cast <;> linarith
    omega
  obtain ⟨w1, e1, e2, -⟩ := lazyHF_ok h.reach.subInv.keys h.hI h.inA h.hJ h.hs h.hF
  have hfr : LFrame w w1 := by
    have := lazyHF_frame i w
    rwa [e1] at this
  have hin1 : SubInv w1 := by
    have := h.reach.subInv.steps (lazyHF_steps (C := fun _ _ _ => True) i w)
    rwa [e1] at this
  have hD : Draw w1 i J := ⟨hin1, by rw [hfr.I]; exact h.hI, by rw [hfr.inAtom]; exact h.inA, by rw [hfr.term]; exact h.hJ, h.hs,
    by rw [hfr.term]; exact h.hF, by rw [hfr.I]; exact e2⟩
  unfold zTableF
  rw [PyM.bind_ok e1, PyM.bind_ok (show PyM.get w1 = (w1, .ok w1) from rfl)]
  cases hv : (w1.lv i).subs.vals with
  | nil =>
    have := hyp_zip hD
    rw [hv] at this
    cases hzz : hfFs w1.I J with
    | nil => exact absurd hzz (hfFs_ne hD.hI h.hs)
    | cons a l => rw [hzz] at this; cases this
  | cons j js =>
    obtain ⟨F, hj⟩ := (hyp_vals hin1 hD.hI hD.hJ h.hs hD.hF j).1 (by rw [hv]; exact List.mem_cons_self)
    have hsF := hfFs_spin hD.hI hD.hs hj.mem
    obtain ⟨w2, z1, z2, -⟩ := lazyZ_ok hD.inv.keys hj.J hj.F hsF
    have hfr2 : LFrame w1 w2 := by
      have := lazyZ_frame j w1
      rwa [z1] at this
    have hin2 : SubInv w2 := by
      have := hin1.steps (lazyZ_steps (C := fun _ _ _ => True) j w1)
      rwa [z1] at this
    have hlv : w2.lv = w1.lv := by
      have := lazyZ_lv j w1
      rwa [z1] at this
    have hD2 := hD.frame hin2 hfr2 hlv
    have hj2 := hj.frame hfr2 hlv
    obtain ⟨z, zs, hzv⟩ : ∃ z zs, (w2.hf j).subs.vals = z :: zs := by
      cases hvz : (w2.hf j).subs.vals with
      | nil =>
        have := zee_zip hin2 hj2.F hsF z2
        rw [hvz] at this
        cases hzz : zMs F with
        | nil => exact absurd hzz (zMs_ne hsF)
        | cons a l => rw [hzz] at this; cases this
      | cons z zs => exact ⟨z, zs, rfl⟩
    obtain ⟨m, hz⟩ := (zee_vals hin2 hj2.J hj2.F hsF z).1 (by rw [hzv]; exact List.mem_cons_self)
    have hzJ : (w2.zl z).term.J = some J := by
      obtain ⟨-, -, m', -, h4⟩ := hin2.subs.zlOf j _ z hz.get
      rw [h4]; exact hj2.J
    have hp := procKw_ok (t := (w2.zl z).term) hD2.inA hzJ hk.ok hk.sq
    rw [hfr2.I, hfr.I, hsq] at hp
    have hrow : zRow z k w2 = (w2, .error .ZeroDivisionError) := by
      unfold zRow
      rw [PyM.bind_ok (show PyM.get w2 = (w2, .ok w2) from rfl), hz.par, hj2.par]
      simp only
      rw [PyM.bind_ok hp]
      simp only
      rw [PyM.bind_ok (show PyM.lift (pyDiv (k.fill * k.width) ((1 : ℤ) : ℚ)) w2 = (w2, .ok _) by rw [pyDiv_ok (by norm_num)]; rfl)]
      have hd : pyDiv ((1 - k.fill) * k.width) (((1 : ℤ) : ℚ) - 1) = .error .ZeroDivisionError := by
        unfold pyDiv
        rw [if_pos (by norm_num)]
      rw [PyM.bind_err (show PyM.lift (pyDiv ((1 - k.fill) * k.width) (((1 : ℤ) : ℚ) - 1)) w2 = (w2, .error .ZeroDivisionError) by rw [hd]; rfl)]
    have htab : zTableH j k w1 = (w2, .error .ZeroDivisionError) := by
      unfold zTableH
      rw [PyM.bind_ok z1, PyM.bind_ok (show PyM.get w2 = (w2, .ok w2) from rfl), hzv]
      have : rowsOf (fun z => do let r ← zRow z k; pure [r]) (z :: zs) w2 = (w2, .error .ZeroDivisionError) := by
        show ((zRow z k >>= fun r => pure [r]) >>= _) w2 = _
        rw [PyM.bind_err (e := .ZeroDivisionError) (w' := w2)]
        rw [PyM.bind_err hrow]
      rw [PyM.bind_err this]
    have : rowsOf (fun j => zTableH j k) (j :: js) w1 = (w2, .error .ZeroDivisionError) := by
      show (zTableH j k >>= _) w1 = _
      rw [PyM.bind_err htab]
    rw [PyM.bind_err this]

/-- An atom with `I = 0` and one level with `J = 1/2`. -/
def halfOps : List Op := [.newLevel (demoTerm 'g') 0 0 0 0 0 none, .addLevel 0 false none]

theorem C68_fails : ¬C68_full := by
  intro h
  have hJ : ((runAll halfOps (emptyAtom 0 0)).lv 0).term.J = some (1/2) := by decide +kernel
  obtain ⟨w', rows, h1, -⟩ := h (runAll halfOps (emptyAtom 0 0)) 0 (1/2) {} ⟨demo_reachable (by decide +kernel), ⟨0, by decide +kernel⟩,
    by decide +kernel, hJ, ⟨1, by norm_num⟩, by decide +kernel⟩
    ⟨⟨by norm_num, by norm_num, by norm_num, by norm_num⟩, .inl rfl, by norm_num, by norm_num, by norm_num⟩
  have : (zTableF 0 {} (runAll halfOps (emptyAtom 0 0))).2 = .error .ZeroDivisionError := by decide +kernel
  rw [h1] at this
  cases this

/-- The width fails also where nothing is raised: `I = 1`, `J = 1/2`; with width 4/5 the outermost level spans 27/25. -/
theorem C68_width_fails : (((zTableF 0 {} (runAll halfOps (emptyAtom 1 0))).2.toOption.getD []).map (·.p0.1))[3]? = some (1/2 - 27/50) ∧
    (((zTableF 0 {} (runAll halfOps (emptyAtom 1 0))).2.toOption.getD []).map (·.p1.1))[6]? = some (1/2 + 27/50) := by decide +kernel

/-- The hypotheses hold for the example atom with `I = 3/2` and its level with `J = 1/2`. -/
theorem dAtom_draw : DrawLevel dAtom 0 (1/2) :=
  ⟨dAtom_reachable, dAtom_ready.hI, by decide +kernel, by decide +kernel, ⟨1, by norm_num⟩, by decide +kernel⟩

theorem kw_usual : DrawKw.Usual {} :=
  ⟨⟨by norm_num, by norm_num, by norm_num, by norm_num⟩, .inl rfl, by norm_num, by norm_num, by norm_num⟩

example : ∃ w' rows, zTableF 0 {} dAtom = (w', .ok rows) ∧ rows ≠ [] := by
  have hI : dAtom.I = 3/2 := by decide +kernel
  obtain ⟨w', rows, h1, h2, h3⟩ := C68_drawn_partial dAtom_draw kw_usual (by rw [hI]; norm_num)
  refine ⟨w', rows, h1, ?_⟩
  rintro rfl
  obtain ⟨j, hj, -⟩ := h2 0 (by rw [hI]; norm_num)
  obtain ⟨F, -, hd, -⟩ := h3 j hj
  obtain ⟨n, n1, n2⟩ := hd.ms
  have : n = 0 := by
    have := congrArg List.length n2
    simpa [zRowsOf] using this.symm
  have hF : (0 : ℚ) = 2 * F + 1 := by rw [← n1, this]; rfl
  have : IsSpin F := by
    obtain ⟨w'', p, fr, e1, e2, -⟩ := zTableF_ok dAtom_reachable.subInv dAtom_draw.hI dAtom_draw.inA dAtom_draw.hJ dAtom_draw.hs dAtom_draw.hF
      kw_usual.ok kw_usual.sq (by decide +kernel) (by decide +kernel)
    rw [h1] at e1
    simp at e1
  linarith [this.nonneg]

/-! ## C77 -/

/-- The row of the table that draws hyperfine level `j`. -/
def RowOf (rows : List DRow) (j : Nat) (r : DRow) : Prop := r ∈ rows ∧ r.level = .hyp j

/-- The full claim: the hyperfine strategy draws every hyperfine level once, with `sublevel_width = 'degeneracy'` the lengths are
proportional to `2 F + 1` and the outermost level is as wide as requested, with `'schematic'` and no offset all are as wide as
requested. -/
def C77_full : Prop := ∀ (w : World) (i : Nat) (J : ℚ) (k : DrawKw), DrawLevel w i J → DrawKw.Usual k → k.offset = 0 →
  ∃ w' rows, hTableF i k w = (w', .ok rows) ∧ ∀ j ∈ (w'.lv i).subs.vals, ∃ F r, (w'.hf j).term.F = some F ∧ RowOf rows j r ∧
    (k.subWidth = 1 → r.p1.1 - r.p0.1 = k.width * (2 * F + 1) / (2 * (J + w.I) + 1)) ∧ (k.subWidth = 0 → r.p1.1 - r.p0.1 = k.width)

/-- C77 with the factor the code uses: the squeeze factor is doubled twice, so that with `'degeneracy'` all lengths are too small
by one common factor.  Missing: the right factor, `C77_fails`. -/
theorem C77_widths_partial {w : World} {i : Nat} {J : ℚ} {k : DrawKw} (h : DrawLevel w i J) (hk : DrawKw.Usual k) :
    ∃ w' rows lo, hTableF i k w = (w', .ok rows) ∧ (∀ n : ℕ, |J - w.I| + n ≤ J + w.I → ∃ j ∈ (w'.lv i).subs.vals, (w'.hf j).term.F = some (|J - w.I| + n)) ∧
      (∀ j ∈ (w'.lv i).subs.vals, ∃ F r, (w'.hf j).term.F = some F ∧ RowOf rows j r ∧ r.shown = true ∧ r.p0.2 = r.p1.2 ∧
        (r.p0.1 + r.p1.1) / 2 = k.x0.getD J + k.x1 + k.offset * k.width * (F - lo) ∧
        (k.subWidth = 1 → r.p1.1 - r.p0.1 = k.width * (2 * F + 1) / (4 * ⌊J + w.I⌋ + 3)) ∧
        (k.subWidth = 0 → k.offset = 0 → r.p1.1 - r.p0.1 = k.width)) ∧
      ∀ r ∈ rows, r.level = .fine i ∧ r.shown = false ∨ ∃ j ∈ (w'.lv i).subs.vals, r.level = .hyp j := by
  obtain ⟨w', rs, fr, lo, e1, e2, e3, e4, e5, e6, e7, e8, e9⟩ := hTableF_ok h.reach.subInv h.hI h.inA h.hJ h.hs h.hF hk.ok hk.sq
  refine ⟨w', _, lo, e1, ?_, ?_, ?_⟩
  · intro n hn
    obtain ⟨N, n1, n2⟩ := spin_count h.hI h.hs
    have hm : |J - w.I| + (n : ℚ) ∈ hfFs w'.I J := by
      rw [e3.I]
      unfold hfFs
      rw [arange_nat _ _ N n1]
      refine List.mem_map.2 ⟨n, List.mem_range.2 ?_, rfl⟩
      have : (n : ℚ) < N := by linarith
      exact_mod_cast this
    obtain ⟨j, hj⟩ := hyp_all e2.inv e2.hJ e2.hI e2.hs e2.hF e2.keys hm
    exact ⟨j, (hyp_vals e2.inv e2.hI e2.hJ e2.hs e2.hF j).2 ⟨_, hj⟩, hj.F⟩
  · intro j hj
    obtain ⟨F, hF⟩ := (hyp_vals e2.inv e2.hI e2.hJ e2.hs e2.hF j).1 hj
    have hm : F ∈ hfFs w.I J := by rw [← e3.I]; exact hF.mem
    obtain ⟨r, hr, j', hj', hrow, -⟩ : ∃ r ∈ rs, ∃ j, IsHyp w' i J j F ∧
        HRowIs k (k.x0.getD J) lo (hfFs w.I J).length (World.sq w.I J) j F true r ∧ bbox [r.p0, r.p1] k.pad = .ok r.box := by
      obtain ⟨r, hr, j, g1, g2, g3, -⟩ := forall2_mem_left e9 hm
      exact ⟨r, hr, j, g1, g2, g3⟩
    have hjj := hF.unique hj'
    subst hjj
    refine ⟨F, r, hF.F, ⟨List.mem_append_left _ hr, hrow.level⟩, hrow.shown, hrow.flat, ?_, ?_, ?_⟩
    · rw [hrow.mid]; ring
    · intro ha
      rw [hrow.wid, ha, sq_eq h.hI h.hs]
      push_cast
      ring
    · intro ha ho
      rw [hrow.wid, ha, ho]
      ring
  · intro r hr
    rcases List.mem_append.1 hr with hr | hr
    · obtain ⟨F, -, j, hj, hrow, -⟩ := forall2_mem_right e9 hr
      exact .inr ⟨j, (hyp_vals e2.inv e2.hI e2.hJ e2.hs e2.hF j).2 ⟨_, hj⟩, hrow.level⟩
    · rw [List.mem_singleton] at hr
      subst hr
      exact .inl ⟨e4, e5.1⟩

theorem C77_fails : ¬C77_full := by
  intro h
  obtain ⟨w', rows, h1, h2⟩ := h dAtom 0 (1/2) {} dAtom_draw kw_usual rfl
  obtain ⟨w'', rows', lo, g1, g2, g3, -⟩ := C77_widths_partial dAtom_draw kw_usual
  rw [h1] at g1
  simp only [Prod.mk.injEq, Except.ok.injEq] at g1
  obtain ⟨rfl, rfl⟩ := g1
  have hrows : (hTableF 0 {} dAtom).2.toOption.getD [] = rows := by rw [h1]; rfl
  have hw : w' = (hTableF 0 {} dAtom).1 := by rw [h1]
  have hall : ∀ r ∈ (hTableF 0 {} dAtom).2.toOption.getD [], r.level = .hyp 0 → r.p1.1 - r.p0.1 = 12/55 := by decide +kernel
  have h0 : 0 ∈ (w'.lv 0).subs.vals := by rw [hw]; decide +kernel
  obtain ⟨F, r, f1, ⟨f2, f3⟩, f4, -⟩ := h2 0 h0
  rw [← hrows] at f2
  have := hall r f2 f3
  rw [f4 rfl] at this
  have hF : (w'.hf 0).term.F = some 1 := by rw [hw]; decide +kernel
  rw [hF] at f1
  cases f1
  have hI : dAtom.I = 3/2 := by decide +kernel
  rw [hI] at this
  norm_num at this

/-! ## C78 -/

/-- C78: in the tables of the Zeeman strategy the box of a hyperfine level contains the lines of its Zeeman levels, and the box of
the level contains all lines; in the tables of the hyperfine strategy likewise. -/
theorem C78_zeeman {w w' : World} {i : Nat} {J : ℚ} {k : DrawKw} {rows : List DRow} (h : DrawLevel w i J) (hk : DrawKw.Usual k)
    (ht : zTableF i k w = (w', .ok rows)) :
    (∀ j ∈ (w'.lv i).subs.vals, ∃ s ∈ rows, s.level = .hyp j) ∧ (∃ s ∈ rows, s.level = .fine i) ∧
      (∀ s ∈ rows, ∀ j, s.level = .hyp j → ∀ r ∈ zRowsOf w' j rows, s.box.Has r.p0 ∧ s.box.Has r.p1) ∧
      ∀ s ∈ rows, s.level = .fine i → ∀ r ∈ rows, r.level ≠ .fine i → s.box.Has r.p0 ∧ s.box.Has r.p1 := by
  have h1 : 1 ≤ J + w.I := by
    by_contra hc
    have := C68_small_raises h hk (not_le.1 hc)
    rw [ht] at this
    cases this
  have hfl : 1 ≤ ⌊J + w.I⌋ := Int.le_floor.2 (by exact_mod_cast h1)
  have hsq := sq_eq h.hI h.hs
  obtain ⟨w', parts, fr, e1, e2, e3, e4, e5, e6, e7⟩ := zTableF_ok h.reach.subInv h.hI h.inA h.hJ h.hs h.hF hk.ok hk.sq
    (by rw [hsq]; omega) (by rw [hsq]; omega)
  rw [ht] at e1
  simp only [Prod.mk.injEq, Except.ok.injEq] at e1
  obtain ⟨rfl, rfl⟩ := e1
  have hnf : ∀ r ∈ parts.flatten, r.level ≠ .fine i := by
    intro r hr
    obtain ⟨p, hp, hrp⟩ := List.mem_flatten.1 hr
    obtain ⟨j, -, F, zr, hr', -, -, rfl, g1, -, -, g2⟩ := forall2_mem_right e7 hp
    rcases List.mem_append.1 hrp with hrp | hrp
    · obtain ⟨m, -, z, -, g⟩ := forall2_mem_right g2 hrp
      rw [g.level]; simp
    · rw [List.mem_singleton] at hrp
      rw [hrp, g1]; simp
  have hfine : ∀ j, zRowsOf w' j [fr] = [] := by
    intro j
    apply filter_none
    intro r hr z hz
    rw [List.mem_singleton] at hr
    subst hr
    rw [e4] at hz
    cases hz
  refine ⟨?_, ⟨fr, by simp, e4⟩, ?_, ?_⟩
  · intro j hj
    obtain ⟨p, hp, F, zr, hr, -, -, rfl, g1, -⟩ := forall2_mem_left e7 hj
    exact ⟨hr, List.mem_append_left _ (List.mem_flatten.2 ⟨_, hp, by simp⟩), g1⟩
  · intro s hs j hsj r hr
    rw [zRowsOf_append, hfine, List.append_nil] at hr
    rcases List.mem_append.1 hs with hs | hs
    · obtain ⟨p, hp, hsp⟩ := List.mem_flatten.1 hs
      obtain ⟨j', hj', hpart⟩ := forall2_mem_right e7 hp
      obtain ⟨F, zr, hr', -, -, rfl, g1, -, g3, g2⟩ := hpart
      have hss : s = hr' := by
        rcases List.mem_append.1 hsp with hsp | hsp
        · obtain ⟨m, -, z, -, g⟩ := forall2_mem_right g2 hsp
          rw [g.level] at hsj
          cases hsj
        · exact List.mem_singleton.1 hsp
      subst hss
      rw [g1] at hsj
      cases hsj
      -- the row belongs to the same part
      have hmem : r ∈ parts.flatten ∧ ∃ z, r.level = .zee z ∧ (w'.zl z).parent = j := by
        unfold zRowsOf at hr
        rw [List.mem_filter] at hr
        refine ⟨hr.1, ?_⟩
        cases hl : r.level with
        | zee z => exact ⟨z, rfl, by have := hr.2; rw [hl] at this; simpa using this⟩
        | fine a => have := hr.2; rw [hl] at this; simp at this
        | hyp a => have := hr.2; rw [hl] at this; simp at this
      obtain ⟨hrm, z, hz, hpar⟩ := hmem
      obtain ⟨p, hp', hrp⟩ := List.mem_flatten.1 hrm
      -- parts of the same hyperfine level are the same
      have huniq : ∀ (js : List Nat) (parts : List (List DRow)), js.Nodup → List.Forall₂ (fun j rs => ZPart k i w.I J j w' rs) js parts →
          ∀ p ∈ parts, r ∈ p → ∀ q ∈ parts, s ∈ q → p = q := by
        have one : ∀ j' p, ZPart k i w.I J j' w' p → (r ∈ p → j' = j) ∧ (s ∈ p → j' = j) := by
          rintro j' p ⟨F', zr', hr'', -, -, rfl, k1, -, -, k2⟩
          constructor
          · intro hm
            rcases List.mem_append.1 hm with hm | hm
            · obtain ⟨m, -, z', ⟨-, -, q⟩, q'⟩ := forall2_mem_right k2 hm
              have := q'.level
              rw [hz] at this
              cases this
              rw [← q]; exact hpar
            · rw [List.mem_singleton] at hm
              rw [hm, k1] at hz
              cases hz
          · intro hm
            rcases List.mem_append.1 hm with hm | hm
            · obtain ⟨m, -, z', ⟨-, -, q⟩, q'⟩ := forall2_mem_right k2 hm
              have := q'.level
              rw [g1] at this
              cases this
            · rw [List.mem_singleton] at hm
              rw [hm, k1] at g1
              cases g1; rfl
        intro js parts hn hf
        induction hf with
        | nil => intro p hp; cases hp
        | @cons a b js parts k1 k2 ih =>
          rw [List.nodup_cons] at hn
          intro p hp hrp q hq hsq
          rcases List.mem_cons.1 hp with rfl | hp2 <;> rcases List.mem_cons.1 hq with rfl | hq2
          · rfl
          · exfalso
            obtain ⟨c, hc, hcq⟩ := forall2_mem_right k2 hq2
            have c1 := (one _ _ k1).1 hrp
            have c2 := (one _ _ hcq).2 hsq
            exact hn.1 (by rw [c1, ← c2]; exact hc)
          · exfalso
            obtain ⟨c, hc, hcq⟩ := forall2_mem_right k2 hp2
            have c1 := (one _ _ k1).2 hsq
            have c2 := (one _ _ hcq).1 hrp
            exact hn.1 (by rw [c1, ← c2]; exact hc)
          · exact ih hn.2 p hp2 hrp q hq2 hsq
      have := huniq _ _ (vals_nodup e2) e7 p hp' hrp _ hp (by simp)
      subst this
      apply g3
      rcases List.mem_append.1 hrp with h | h
      · exact h
      · rw [List.mem_singleton] at h
        rw [h, g1] at hz
        cases hz
    · rw [List.mem_singleton] at hs
      rw [hs, e4] at hsj
      cases hsj
  · intro s hs hsi r hr hri
    have hsf : s = fr := by
      rcases List.mem_append.1 hs with hs | hs
      · exact absurd hsi (hnf s hs)
      · exact List.mem_singleton.1 hs
    subst hsf
    rcases List.mem_append.1 hr with hr | hr
    · exact e6 r hr
    · rw [List.mem_singleton] at hr
      rw [hr] at hri
      exact absurd e4 hri

theorem C78_hyperfine {w : World} {i : Nat} {J : ℚ} {k : DrawKw} (h : DrawLevel w i J) (hk : DrawKw.Usual k) (hp : 0 ≤ k.pad) :
    ∃ w' rows, hTableF i k w = (w', .ok rows) ∧ (∃ s ∈ rows, s.level = .fine i) ∧
      (∀ s ∈ rows, s.level = .fine i → ∀ r ∈ rows, r.level ≠ .fine i → s.box.Has r.p0 ∧ s.box.Has r.p1) ∧
      ∀ r ∈ rows, r.level ≠ .fine i → r.box.Has r.p0 ∧ r.box.Has r.p1 := by
  obtain ⟨w', rs, fr, lo, e1, e2, e3, e4, e5, e6, e7, e8, e9⟩ := hTableF_ok h.reach.subInv h.hI h.inA h.hJ h.hs h.hF hk.ok hk.sq
  refine ⟨w', _, e1, ⟨fr, by simp, e4⟩, ?_, ?_⟩
  · intro s hs hsi r hr hri
    have hsf : s = fr := by
      rcases List.mem_append.1 hs with hs | hs
      · obtain ⟨F, -, j, -, g, -⟩ := forall2_mem_right e9 hs
        rw [g.level] at hsi
        cases hsi
      · exact List.mem_singleton.1 hs
    subst hsf
    rcases List.mem_append.1 hr with hr | hr
    · exact e6 r hr
    · rw [List.mem_singleton] at hr
      rw [hr] at hri
      exact absurd e4 hri
  · intro r hr hri
    rcases List.mem_append.1 hr with hr | hr
    · obtain ⟨F, -, j, -, -, g, -⟩ := forall2_mem_right e9 hr
      obtain ⟨b, b1, b2, -⟩ := C67_bbox (pts := [r.p0, r.p1]) (by simp) hp
      rw [g] at b1
      cases b1
      exact ⟨b2 _ (by simp), b2 _ (by simp)⟩
    · rw [List.mem_singleton] at hr
      rw [hr] at hri
      exact absurd e4 hri

/-- The level `J = 1/2` in the atom with `I = 3/2`: two hyperfine levels, eight Zeeman levels, the level itself. -/
example : DrawLevel dAtom 0 (1/2) ∧ DrawKw.Usual {} ∧ ((zTableF 0 {} dAtom).2.toOption.getD []).length = 11 :=
  ⟨dAtom_draw, kw_usual, by decide +kernel⟩

end AtomTk
