import Verif.Proofs.SubTrans
import Verif.Model.Grotrian
import Verif.Props.Render

/-!
# Rows of Grotrian diagrams
-/

namespace AtomTk
namespace World

/-- A level of an atom with populated sublevels. -/
structure Draw (w : World) (i : Nat) (J : ℚ) : Prop where
  inv : SubInv w
  hI : IsSpin w.I
  inA : (w.lv i).inAtom = true
  hJ : (w.lv i).term.J = some J
  hs : IsSpin J
  hF : (w.lv i).term.F = none
  keys : (w.lv i).subs.keys = (hfFs w.I J).map fKey

theorem Draw.ne {w : World} {i : Nat} {J : ℚ} (h : Draw w i J) : (w.lv i).subs ≠ [] := by
  intro h0
  have := h.keys
  rw [keys_nil h0] at this
  exact hfFs_ne h.hI h.hs (by simpa using this.symm)

theorem Draw.lazy {w : World} {i : Nat} {J : ℚ} (h : Draw w i J) : lazyHF i w = (w, .ok ()) := by
  unfold lazyHF
  rw [if_neg (by simpa using h.ne)]

/-- Values and keys of a dictionary in step. -/
theorem vals_zip {κ β : Type} [DecidableEq κ] {α : Type} (key : β → κ) (P : α → β → Prop) (d : Dict κ α) (l : List β)
    (hk : d.keys = l.map key) (hn : (l.map key).Nodup) (h : ∀ b ∈ l, ∃ a, d.get? (key b) = some a ∧ P a b) :
    List.Forall₂ P d.vals l := by
  induction d generalizing l with
  | nil =>
    cases l with
    | nil => exact .nil
    | cons b l => simp [Dict.keys] at hk
  | cons p d ih =>
    obtain ⟨k, a⟩ := p
    cases l with
    | nil => simp [Dict.keys] at hk
    | cons b l =>
      simp only [Dict.keys, List.map_cons, List.cons.injEq] at hk
      obtain ⟨rfl, hk⟩ := hk
      refine .cons ?_ (ih l hk (List.nodup_cons.1 hn).2 fun c hc => ?_)
      · obtain ⟨a', h1, h2⟩ := h b List.mem_cons_self
        simp only [Dict.get?, if_true] at h1
        cases h1
        exact h2
      · obtain ⟨a', h1, h2⟩ := h c (List.mem_cons_of_mem _ hc)
        refine ⟨a', ?_, h2⟩
        simp only [Dict.get?] at h1
        rwa [if_neg] at h1
        intro he
        exact (List.nodup_cons.1 hn).1 (he ▸ List.mem_map.2 ⟨c, hc, rfl⟩)

theorem hyp_zip {w : World} {i : Nat} {J : ℚ} (h : Draw w i J) :
    List.Forall₂ (fun j F => IsHyp w i J j F) (w.lv i).subs.vals (hfFs w.I J) := by
  refine vals_zip fKey _ _ _ h.keys (hfKeys_nodup h.hI h.hs) fun F hF => ?_
  obtain ⟨j, hj⟩ := hyp_all h.inv h.hJ h.hI h.hs h.hF h.keys hF
  exact ⟨j, hj.get, hj⟩

theorem zee_zip {w : World} (h : SubInv w) {j : Nat} {F : ℚ} (hF : (w.hf j).term.F = some F) (hs : IsSpin F)
    (hk : (w.hf j).subs.keys = (zMs F).map mKey) : List.Forall₂ (fun z m => IsZee w j F z m) (w.hf j).subs.vals (zMs F) := by
  refine vals_zip mKey _ _ _ hk (zKeys_nodup hs) fun m hm => ?_
  obtain ⟨z, hz⟩ := zee_all h hF hs hk hm
  exact ⟨z, hz.get, hz⟩

theorem filterMap_F {w : World} {i : Nat} {J : ℚ} {js : List Nat} {Fs : List ℚ} (h : List.Forall₂ (fun j F => IsHyp w i J j F) js Fs) :
    js.filterMap (fun j => (w.hf j).term.F) = Fs := by
  induction h with
  | nil => rfl
  | @cons j F js Fs h1 h2 ih =>
    show (j :: js).filterMap (fun j => (w.hf j).term.F) = F :: Fs
    rw [List.filterMap_cons, h1.F, ih]

theorem IsHyp.shift {w : World} {i j : Nat} {J F : ℚ} (h : IsHyp w i J j F) :
    w.hShift j = .ok ((w.lv i).hfA * iDotJ w.I J F + (w.lv i).hfB * e2 w.I J F + (w.lv i).hfC * m3 w.I J F) := by
  unfold hShift
  rw [h.J, h.F, h.par]
  simp only [hfShift_ok]

/-- The hyperfine shift of the sublevel `F` of level `i`. -/
def shiftAt (w : World) (i : Nat) (J F : ℚ) : ℚ := (w.lv i).hfA * iDotJ w.I J F + (w.lv i).hfB * e2 w.I J F + (w.lv i).hfC * m3 w.I J F

theorem spanOf_ok' {w : World} {i : Nat} {J : ℚ} (h : Draw w i J) : ∃ lo hi, w.spanOf i = .ok ((hfFs w.I J).length, |shiftAt w i J hi - shiftAt w i J lo|, lo) ∧
    (lo ∈ hfFs w.I J ∧ ∀ F ∈ hfFs w.I J, lo ≤ F) ∧ hi ∈ hfFs w.I J ∧ ∀ F ∈ hfFs w.I J, F ≤ hi := by
  obtain ⟨hi, e1, m1, g1⟩ := pyMax_ok (hfFs_ne h.hI h.hs)
  obtain ⟨lo, e2, m2, g2⟩ := pyMin_ok (hfFs_ne h.hI h.hs)
  obtain ⟨jh, hh⟩ := hyp_all h.inv h.hJ h.hI h.hs h.hF h.keys m1
  obtain ⟨jl, hl⟩ := hyp_all h.inv h.hJ h.hI h.hs h.hF h.keys m2
  refine ⟨lo, hi, ?_, ⟨m2, g2⟩, m1, g1⟩
  unfold spanOf
  rw [filterMap_F (hyp_zip h)]
  simp only [e1, e2, bind, Except.bind, Dict.getE_ok.2 hh.get, Dict.getE_ok.2 hl.get, hh.shift, hl.shift]
  rfl

theorem spanOf_ok {w : World} {i : Nat} {J : ℚ} (h : Draw w i J) : ∃ sp lo, w.spanOf i = .ok ((hfFs w.I J).length, sp, lo) ∧
    lo ∈ hfFs w.I J ∧ ∀ F ∈ hfFs w.I J, lo ≤ F := by
  obtain ⟨lo, hi, h1, ⟨m2, g2⟩, -⟩ := spanOf_ok' h
  exact ⟨_, lo, h1, m2, g2⟩

/-- Keyword values the code accepts. -/
structure DrawKw.Ok (k : DrawKw) : Prop where
  b0 : 0 ≤ k.spacing
  b1 : k.spacing ≤ 1
  a0 : 0 ≤ k.subWidth
  a1 : k.subWidth ≤ 1

/-- The number the code divides by. -/
def sq (I J : ℚ) : ℤ := pyInt (2 * (pyInt (J + I) : ℚ) + 1)

theorem procKw_ok {w : World} {i : Nat} {J : ℚ} (hin : (w.lv i).inAtom = true) {t : Term} (ht : t.J = some J) {k : DrawKw} (hk : DrawKw.Ok k)
    (hq : k.squeeze = .dflt ∨ k.squeeze = .yes) :
    procKw i t k w = (w, .ok ⟨k.x0.getD J, k.y0.getD (w.eHz i / 1000000000000), sq w.I J⟩) := by
  unfold procKw
  rw [PyM.bind_ok (show PyM.get w = (w, .ok w) from rfl)]
  rw [if_neg (by simp [hin]), ht]
  simp only
  have h1 : squeezeArg k.squeeze (J + w.I) w = (w, .ok (pyInt (J + w.I) : ℚ)) := by
    rcases hq with h | h <;> rw [h] <;> rfl
  rw [PyM.bind_ok h1, if_pos ⟨hk.b0, hk.b1, hk.a0, hk.a1⟩]
  rfl

theorem bbox2_ok (p q : Pt) (pad : ℚ) : ∃ b, bbox [p, q] pad = .ok b := by
  obtain ⟨b, _, _, _, _, h, -⟩ := bbox_ok (pts := [p, q]) (by simp) pad
  exact ⟨b, h⟩

theorem pyDiv_ok {a b : ℚ} (h : b ≠ 0) : pyDiv a b = .ok (a / b) := by
  unfold pyDiv
  rw [if_neg h]

theorem mkRow_ok (Q : DRow → Prop) (l : Ref) (over : Option Box) (shown : Bool) (pad : ℚ) (p0 p1 : Pt) (w : World)
    (h : ∀ b, (∀ c, over = some c → b = c) → (over = none → bbox [p0, p1] pad = .ok b) → Q ⟨l, shown, p0, p1, b⟩) :
    ∃ r, PyM.lift (mkRow l over shown pad p0 p1) w = (w, .ok r) ∧ Q r := by
  cases over with
  | some c => exact ⟨_, rfl, h c (fun _ h => Option.some.inj h) (fun h => by cases h)⟩
  | none =>
    obtain ⟨b, hb⟩ := bbox2_ok p0 p1 pad
    refine ⟨⟨l, shown, p0, p1, b⟩, ?_, h b (fun _ h => by cases h) (fun _ => hb)⟩
    unfold mkRow
    simp only
    rw [hb]
    rfl

/-- The height of the line of a level itself. -/
def yOf (w : World) (i : Nat) (k : DrawKw) : ℚ := k.y0.getD (w.eHz i / 1000000000000) + k.y1

/-- The height of a hyperfine row. -/
def HHeight (w : World) (k : DrawKw) (i : Nat) (J F : ℚ) (R : DRow) : Prop := ∃ lo hi,
  (lo ∈ hfFs w.I J ∧ ∀ F ∈ hfFs w.I J, lo ≤ F) ∧ (hi ∈ hfFs w.I J ∧ ∀ F ∈ hfFs w.I J, F ≤ hi) ∧
  R.p0.2 = yOf w i k + k.hfScale / 1000000000000 * (k.spacing * shiftAt w i J F +
    (1 - k.spacing) * (F - lo - (hfFs w.I J).length / 2) * |shiftAt w i J hi - shiftAt w i J lo| / (hfFs w.I J).length)

/-- The height of a Zeeman row with realistic and with schematic spacing. -/
def ZHeight (w : World) (k : DrawKw) (z : Nat) (R : DRow) : Prop :=
  (k.spacing = 1 → ∃ hs zs, w.hShift (w.zl z).parent = .ok hs ∧
    w.zShiftHz z = .ok zs ∧ R.p0.2 = yOf w (w.hf (w.zl z).parent).parent k + k.hfScale / 1000000000000 * (hs + k.zScale * zs)) ∧
  (k.spacing = 0 → ∃ J F, (w.lv (w.hf (w.zl z).parent).parent).term.J = some J ∧ (w.zl z).term.F = some F ∧ F ∈ hfFs w.I J ∧
    HHeight w k (w.hf (w.zl z).parent).parent J F R)

theorem LFrame.shiftAt {w w' : World} (hf : LFrame w w') (i : Nat) (J F : ℚ) : shiftAt w' i J F = AtomTk.World.shiftAt w i J F := by
  obtain ⟨s, e⟩ := hf.lv i
  unfold World.shiftAt
  rw [e, hf.I]

theorem LFrame.yOf {w w' : World} (hf : LFrame w w') (i : Nat) (k : DrawKw) : yOf w' i k = AtomTk.World.yOf w i k := by
  unfold World.yOf
  rw [hf.eHz]

theorem LFrame.HHeight {w w' : World} (hf : LFrame w w') {i : Nat} {k : DrawKw} {J F : ℚ} {R : DRow} (h : AtomTk.World.HHeight w k i J F R) :
    AtomTk.World.HHeight w' k i J F R := by
  unfold World.HHeight at h ⊢
  simpa only [hf.shiftAt, hf.yOf, hf.I] using h

theorem ZHeight.mono {w w' : World} {k : DrawKw} {z : Nat} {R : DRow} (h : ZHeight w k z R) (hf : LFrame w w') (hz : z < w.nzl)
    (hj : (w.zl z).parent < w.nhf) : ZHeight w' k z R := by
  obtain ⟨s, e⟩ := hf.hf _ hj
  refine ⟨fun hk => ?_, fun hk => ?_⟩
  swap
  · obtain ⟨J, F, h1, h2, h4, h3⟩ := h.2 hk
    rw [hf.zl z hz, e, hf.I]
    obtain ⟨s', e'⟩ := hf.lv (w.hf (w.zl z).parent).parent
    exact ⟨J, F, by simpa only [e'] using h1, h2, h4, hf.HHeight h3⟩
  obtain ⟨hs, zs, h1, h2, h3⟩ := h.1 hk
  refine ⟨hs, zs, ?_, ?_, ?_⟩
  · rw [hf.zl z hz]
    unfold hShift at h1 ⊢
    rw [e, hf.I]
    simp only
    obtain ⟨s', e'⟩ := hf.lv (w.hf (w.zl z).parent).parent
    rw [e']
    exact h1
  · unfold zShiftHz at h2 ⊢
    rw [hf.zl z hz, hf.B]
    exact h2
  · rw [h3, hf.zl z hz, e]
    simp only [yOf, hf.eHz]

/-- A Zeeman row. -/
structure ZRowIs (k : DrawKw) (x c : ℚ) (s : ℤ) (z : Nat) (m : ℚ) (R : DRow) : Prop where
  level : R.level = .zee z
  shown : R.shown = true
  l : R.p0.1 = x + c + m * (k.fill * k.width / s + (1 - k.fill) * k.width / (s - 1)) - k.fill * k.width / s / 2
  r : R.p1.1 = x + c + m * (k.fill * k.width / s + (1 - k.fill) * k.width / (s - 1)) + k.fill * k.width / s / 2
  flat : R.p0.2 = R.p1.2

theorem zRow_ok {w : World} {i j z : Nat} {J F m : ℚ} (h : Draw w i J) (hj : IsHyp w i J j F) (hz : IsZee w j F z m) {k : DrawKw}
    (hk : DrawKw.Ok k) (hq : k.squeeze = .dflt ∨ k.squeeze = .yes) (h0 : sq w.I J ≠ 0) (h1 : sq w.I J ≠ 1) :
    ∃ r, zRow z k w = (w, .ok r) ∧ ZRowIs k (k.x0.getD J) k.x1 (sq w.I J) z m r ∧ ZHeight w k z r := by
  obtain ⟨lo, hi, e, m1, m2⟩ := spanOf_ok' h
  have hzJ : (w.zl z).term.J = some J := by
    obtain ⟨-, -, m', -, h4⟩ := h.inv.subs.zlOf j _ z hz.get
    rw [h4]; exact hj.J
  have hp := procKw_ok (t := (w.zl z).term) h.inA hzJ hk hq
  have d0 : ((sq w.I J : ℤ) : ℚ) ≠ 0 := by exact_mod_cast h0
  have d1 : ((sq w.I J : ℤ) : ℚ) - 1 ≠ 0 := by
    intro hc
    apply h1
    have : ((sq w.I J : ℤ) : ℚ) = 1 := by linarith
    exact_mod_cast this
  have hzs : w.zShiftHz z = .ok (zShift (w.zl z).gF m (w.zl z).quad w.B) := by
    unfold zShiftHz
    rw [hz.mF]
  unfold zRow
  rw [PyM.bind_ok (show PyM.get w = (w, .ok w) from rfl), hz.par, hj.par]
  simp only
  rw [PyM.bind_ok hp]
  simp only
  rw [PyM.bind_ok (show PyM.lift (pyDiv (k.fill * k.width) (sq w.I J)) w = (w, .ok _) by rw [pyDiv_ok d0]; rfl)]
  rw [PyM.bind_ok (show PyM.lift (pyDiv ((1 - k.fill) * k.width) ((sq w.I J : ℚ) - 1)) w = (w, .ok _) by rw [pyDiv_ok d1]; rfl)]
  rw [PyM.bind_ok h.lazy, PyM.bind_ok (show PyM.get w = (w, .ok w) from rfl)]
  rw [PyM.bind_ok (show PyM.lift (w.spanOf i) w = (w, .ok _) by rw [e]; rfl)]
  simp only [hz.F, hz.mF]
  rw [PyM.bind_ok (show PyM.lift (w.hShift j) w = (w, .ok _) by rw [hj.shift]; rfl)]
  rw [PyM.bind_ok (show PyM.lift (w.zShiftHz z) w = (w, .ok _) by rw [hzs]; rfl)]
  refine mkRow_ok _ _ _ _ _ _ _ _ fun b _ _ => ⟨⟨rfl, rfl, rfl, rfl, rfl⟩, fun hk => ⟨shiftAt w i J F, _, ?_, hzs, ?_⟩,
    fun hk => ⟨J, F, ?_, hz.F, hj.mem, ?_⟩⟩
  rotate_right 2
  · rw [hz.par, hj.par]; exact h.hJ
  · rw [hz.par, hj.par]
    refine ⟨lo, hi, m1, m2, ?_⟩
    rw [hk]
    simp only [yOf]
    ring
  · rw [hz.par]; exact hj.shift
  · rw [hz.par, hj.par, hk]
    simp only [yOf, shiftAt]
    ring

/-- A hyperfine row. -/
structure HRowIs (k : DrawKw) (x lo n : ℚ) (s : ℤ) (j : Nat) (F : ℚ) (shown : Bool) (R : DRow) : Prop where
  level : R.level = .hyp j
  shown : R.shown = shown
  mid : R.p0.1 + R.p1.1 = 2 * (x + k.x1 + k.offset * k.width * (F - lo))
  wid : R.p1.1 - R.p0.1 = (1 - k.subWidth) * (k.width - (n - 1) * k.offset * k.width) + k.subWidth * (k.width * (2 * F + 1) / (2 * s + 1))
  flat : R.p0.2 = R.p1.2

theorem hRow_ok {w : World} {i j : Nat} {J F : ℚ} (h : Draw w i J) (hj : IsHyp w i J j F) {k : DrawKw} (over : Option Box) (shown : Bool)
    (hk : DrawKw.Ok k) (hq : k.squeeze = .dflt ∨ k.squeeze = .yes) :
    ∃ lo, lo ∈ hfFs w.I J ∧ (∀ F ∈ hfFs w.I J, lo ≤ F) ∧ ∃ r, hRow j over shown k w = (w, .ok r) ∧
      HRowIs k (k.x0.getD J) lo (hfFs w.I J).length (sq w.I J) j F shown r ∧ (∀ b, over = some b → r.box = b) ∧
      (over = none → bbox [r.p0, r.p1] k.pad = .ok r.box) ∧ HHeight w k i J F r := by
  obtain ⟨lo, hi, e, ⟨h1, h2⟩, h3, h4⟩ := spanOf_ok' h
  have hp := procKw_ok (t := (w.hf j).term) h.inA hj.J hk hq
  have d0 : (2 * ((sq w.I J : ℤ) : ℚ) + 1) ≠ 0 := by
    intro hc
    have : (2 * sq w.I J + 1 : ℤ) = 0 := by exact_mod_cast hc
    omega
  refine ⟨lo, h1, h2, ?_⟩
  unfold hRow
  rw [PyM.bind_ok (show PyM.get w = (w, .ok w) from rfl), hj.par]
  simp only
  rw [PyM.bind_ok hp]
  simp only
  rw [PyM.bind_ok h.lazy, PyM.bind_ok (show PyM.get w = (w, .ok w) from rfl)]
  rw [PyM.bind_ok (show PyM.lift (w.spanOf i) w = (w, .ok _) by rw [e]; rfl)]
  simp only [hj.F]
  rw [PyM.bind_ok (show PyM.lift (pyDiv (k.width * (2 * F + 1)) (2 * (sq w.I J : ℚ) + 1)) w = (w, .ok _) by rw [pyDiv_ok d0]; rfl)]
  rw [PyM.bind_ok (show PyM.lift (w.hShift j) w = (w, .ok _) by rw [hj.shift]; rfl)]
  exact mkRow_ok _ _ _ _ _ _ _ _ fun b hb hn => ⟨⟨rfl, rfl, by simp only; ring, by simp only; ring, rfl⟩, hb, hn,
    lo, hi, ⟨h1, h2⟩, ⟨h3, h4⟩, rfl⟩

theorem levelRow_ok {w : World} {i : Nat} {J : ℚ} (h : Draw w i J) {k : DrawKw} (b : Box) (shown : Bool)
    (hk : DrawKw.Ok k) (hq : k.squeeze = .dflt ∨ k.squeeze = .yes) :
    ∃ r, levelRow i (some b) shown k w = (w, .ok r) ∧ r.level = .fine i ∧ r.shown = shown ∧ r.box = b ∧
      r.p0.1 = k.x0.getD J + k.x1 - k.width / 2 ∧ r.p1.1 = k.x0.getD J + k.x1 + k.width / 2 ∧ r.p0.2 = yOf w i k := by
  have hp := procKw_ok (t := (w.lv i).term) h.inA h.hJ hk hq
  unfold levelRow
  rw [PyM.bind_ok (show PyM.get w = (w, .ok w) from rfl)]
  simp only
  rw [PyM.bind_ok hp]
  simp only
  exact mkRow_ok _ _ _ _ _ _ _ _ fun b hb _ => ⟨rfl, rfl, hb _ rfl, rfl, rfl, rfl⟩

/-! ## Collecting rows -/

theorem rowsOf_const {f : Nat → PyM (List DRow)} {P : Nat → DRow → Prop} {w : World} (l : List Nat)
    (h : ∀ a ∈ l, ∃ r, f a w = (w, .ok [r]) ∧ P a r) : ∃ rs, rowsOf f l w = (w, .ok rs) ∧ List.Forall₂ P l rs := by
  induction l with
  | nil => exact ⟨[], rfl, .nil⟩
  | cons a l ih =>
    obtain ⟨r, h1, h2⟩ := h a List.mem_cons_self
    obtain ⟨rs, h3, h4⟩ := ih fun b hb => h b (List.mem_cons_of_mem _ hb)
    refine ⟨r :: rs, ?_, .cons h2 h4⟩
    show ((f a) >>= _) w = _
    rw [PyM.bind_ok h1, PyM.bind_ok h3]
    rfl

theorem rowsOf_inv {f : Nat → PyM (List DRow)} {Inv : World → Prop} {Q : Nat → World → List DRow → Prop}
    (mono : ∀ a w w' rs, LFrame w w' → Q a w rs → Q a w' rs) (l : List Nat)
    (h : ∀ a ∈ l, ∀ w, Inv w → ∃ w' rs, f a w = (w', .ok rs) ∧ Inv w' ∧ LFrame w w' ∧ Q a w' rs) (w : World) (hw : Inv w) :
    ∃ w' parts, rowsOf f l w = (w', .ok parts.flatten) ∧ Inv w' ∧ LFrame w w' ∧ List.Forall₂ (fun a rs => Q a w' rs) l parts := by
  induction l generalizing w with
  | nil => exact ⟨w, [], rfl, hw, LFrame.refl w, .nil⟩
  | cons a l ih =>
    obtain ⟨w1, rs, h1, i1, f1, q1⟩ := h a List.mem_cons_self w hw
    obtain ⟨w2, parts, h2, i2, f2, q2⟩ := ih (fun b hb => h b (List.mem_cons_of_mem _ hb)) w1 i1
    refine ⟨w2, rs :: parts, ?_, i2, LFrame.trans _ _ _ f1 f2, .cons (mono _ _ _ _ f2 q1) q2⟩
    show ((f a) >>= _) w = _
    rw [PyM.bind_ok h1, PyM.bind_ok h2]
    rfl

theorem lazyZ_lv (j : Nat) (w : World) : (lazyZ j w).1.lv = w.lv := by
  unfold lazyZ
  split
  · split
    · exact popZs_inv (fun w1 => w1.lv = w.lv) j (fun w1 _ _ f g hw1 _ _ _ => hw1) _ w rfl
    · rfl
  · rfl

theorem IsHyp.frame {w w' : World} {i j : Nat} {J F : ℚ} (h : IsHyp w i J j F) (hf : LFrame w w') (hl : w'.lv = w.lv) : IsHyp w' i J j F := by
  obtain ⟨s, hs⟩ := hf.hf j h.lt
  exact ⟨by rw [hf.I]; exact h.mem, by rw [hl]; exact h.get, by rw [hs]; exact h.J, by rw [hs]; exact h.F, by rw [hs]; exact h.mF,
    by rw [hs]; exact h.par, lt_of_lt_of_le h.lt hf.nhf⟩

theorem Draw.frame {w w' : World} {i : Nat} {J : ℚ} (h : Draw w i J) (hi : SubInv w') (hf : LFrame w w') (hl : w'.lv = w.lv) : Draw w' i J :=
  ⟨hi, by rw [hf.I]; exact h.hI, by rw [hl]; exact h.inA, by rw [hl]; exact h.hJ, h.hs, by rw [hl]; exact h.hF, by rw [hl, hf.I]; exact h.keys⟩

/-- The rows the Zeeman strategy makes for one hyperfine level. -/
def ZPart (k : DrawKw) (i : Nat) (I J : ℚ) (j : Nat) (w : World) (rs : List DRow) : Prop :=
  ∃ F zr hr, F ∈ hfFs I J ∧ (j < w.nhf ∧ (w.hf j).term.F = some F ∧ (w.hf j).parent = i) ∧ rs = zr ++ [hr] ∧ hr.level = .hyp j ∧ hr.shown = false ∧
    (∀ r ∈ zr, hr.box.Has r.p0 ∧ hr.box.Has r.p1) ∧
    List.Forall₂ (fun m r => ∃ z, ((z < w.nzl ∧ ZHeight w k z r) ∧ (w.zl z).term.mF = some m ∧ (w.zl z).parent = j) ∧ ZRowIs k (k.x0.getD J) k.x1 (sq I J) z m r)
      (zMs F) zr

theorem ZPart.mono {k : DrawKw} {i j : Nat} {I J : ℚ} {w w' : World} {rs : List DRow} (hf : LFrame w w') (h : ZPart k i I J j w rs) :
    ZPart k i I J j w' rs := by
  obtain ⟨F, zr, hr, h1, ⟨h2, h3, h4⟩, h5, h6, h7, h8, h9⟩ := h
  obtain ⟨s, hs⟩ := hf.hf j h2
  refine ⟨F, zr, hr, h1, ⟨lt_of_lt_of_le h2 hf.nhf, by rw [hs]; exact h3, by rw [hs]; exact h4⟩, h5, h6, h7, h8, h9.imp ?_⟩
  rintro m r ⟨z, ⟨⟨g1, g5⟩, g2, g3⟩, g4⟩
  exact ⟨z, ⟨⟨lt_of_lt_of_le g1 hf.nzl, g5.mono hf g1 (by rw [g3]; exact h2)⟩, by rw [hf.zl z g1]; exact g2, by rw [hf.zl z g1]; exact g3⟩, g4⟩

theorem pts_box {rs : List DRow} (h : rs ≠ []) : ∃ b, bbox (rowPts rs) dfltPad = .ok b ∧ ∀ r ∈ rs, b.Has r.p0 ∧ b.Has r.p1 := by
  have hne : rowPts rs ≠ [] := by
    unfold rowPts
    cases rs with
    | nil => exact absurd rfl h
    | cons a l => simp
  obtain ⟨b, h1, h2, -⟩ := C67_bbox hne (pad := dfltPad) (by norm_num [dfltPad])
  refine ⟨b, h1, fun r hr => ⟨h2 _ ?_, h2 _ ?_⟩⟩
  · exact List.mem_append_left _ (List.mem_map.2 ⟨r, hr, rfl⟩)
  · exact List.mem_append_right _ (List.mem_map.2 ⟨r, hr, rfl⟩)

theorem concatE_ok {l : List Nat} (h : l ≠ []) (rs : List DRow) : concatE l rs = .ok rs := by
  unfold concatE
  rw [if_neg h]

theorem zTableH_ok {w : World} {i j : Nat} {J F : ℚ} (h : Draw w i J) (hj : IsHyp w i J j F) {k : DrawKw}
    (hk : DrawKw.Ok k) (hq : k.squeeze = .dflt ∨ k.squeeze = .yes) (h0 : sq w.I J ≠ 0) (h1 : sq w.I J ≠ 1) :
    ∃ w' rs, zTableH j k w = (w', .ok rs) ∧ Draw w' i J ∧ LFrame w w' ∧ w'.lv = w.lv ∧ ZPart k i w.I J j w' rs := by
  have hsF := hfFs_spin h.hI h.hs hj.mem
  obtain ⟨w', e1, e2, -⟩ := lazyZ_ok h.inv.keys hj.J hj.F hsF
  have hfr : LFrame w w' := by
    have := lazyZ_frame j w
    rwa [e1] at this
  have hin : SubInv w' := by
    have := h.inv.steps (lazyZ_steps (C := fun _ _ _ => True) j w)
    rwa [e1] at this
  have hlv : w'.lv = w.lv := by
    have := lazyZ_lv j w
    rwa [e1] at this
  have hD := h.frame hin hfr hlv
  have hj' := hj.frame hfr hlv
  have hz := zee_zip hin hj'.F hsF e2
  obtain ⟨rs, e3, e4⟩ := rowsOf_const (f := fun z => do let r ← zRow z k; pure [r])
    (P := fun z r => ∃ m, IsZee w' j F z m ∧ ZRowIs k (k.x0.getD J) k.x1 (sq w.I J) z m r ∧ ZHeight w' k z r) (w := w') (w'.hf j).subs.vals (by
      intro z hzm
      obtain ⟨m, hm⟩ := (zee_vals hin hj'.J hj'.F hsF z).1 hzm
      obtain ⟨r, g1, g2⟩ := zRow_ok hD hj' hm hk hq (by rw [hfr.I]; exact h0) (by rw [hfr.I]; exact h1)
      rw [hfr.I] at g2
      refine ⟨r, ?_, m, hm, g2⟩
      rw [PyM.bind_ok g1]; rfl)
  have hne : (w'.hf j).subs.vals ≠ [] := by
    intro h2
    rw [h2] at hz
    cases hzz : zMs F with
    | nil => exact zMs_ne hsF hzz
    | cons a l => rw [hzz] at hz; cases hz
  have hrs : rs ≠ [] := by
    rintro rfl
    cases hv : (w'.hf j).subs.vals with
    | nil => exact hne hv
    | cons a l => rw [hv] at e4; cases e4
  obtain ⟨b, b1, b2⟩ := pts_box hrs
  obtain ⟨lo, -, -, hr, g1, g2, g3, -⟩ := hRow_ok hD hj' (some b) false hk hq
  refine ⟨w', rs ++ [hr], ?_, hD, hfr, hlv, F, rs, hr, hj.mem, ⟨hj'.lt, hj'.F, hj'.par⟩, rfl, g2.level, g2.shown, ?_, ?_⟩
  · unfold zTableH
    rw [PyM.bind_ok e1, PyM.bind_ok (show PyM.get w' = (w', .ok w') from rfl), PyM.bind_ok e3]
    rw [PyM.bind_ok (show PyM.lift (concatE (w'.hf j).subs.vals rs) w' = (w', .ok rs) by rw [concatE_ok hne]; rfl)]
    rw [PyM.bind_ok (show PyM.lift (bbox (rowPts rs) dfltPad) w' = (w', .ok b) by rw [b1]; rfl), PyM.bind_ok g1]
    rfl
  · rw [g3 b rfl]; exact b2
  · -- combine the two lists
    have : ∀ (zs : List Nat) (ms : List ℚ) (rs : List DRow), List.Forall₂ (fun z m => IsZee w' j F z m) zs ms →
        List.Forall₂ (fun z r => ∃ m, IsZee w' j F z m ∧ ZRowIs k (k.x0.getD J) k.x1 (sq w.I J) z m r ∧ ZHeight w' k z r) zs rs →
        List.Forall₂ (fun m r => ∃ z, ((z < w'.nzl ∧ ZHeight w' k z r) ∧ (w'.zl z).term.mF = some m ∧ (w'.zl z).parent = j) ∧
          ZRowIs k (k.x0.getD J) k.x1 (sq w.I J) z m r) ms rs := by
      intro zs ms rs ha
      induction ha generalizing rs with
      | nil => intro hb; cases hb; exact .nil
      | @cons z m zs ms ha1 ha2 ih =>
        intro hb
        cases hb with
        | cons hb1 hb2 =>
          obtain ⟨m', hm', hr', hy'⟩ := hb1
          have : m' = m := by have := hm'.mF; rw [ha1.mF] at this; cases this; rfl
          subst this
          exact .cons ⟨z, ⟨⟨ha1.lt, hy'⟩, ha1.mF, ha1.par⟩, hr'⟩ (ih _ hb2)
    exact this _ _ _ hz e4

theorem zTableF_ok {w : World} (hv : SubInv w) {i : Nat} {J : ℚ} (hI : IsSpin w.I) (hin : (w.lv i).inAtom = true)
    (hJ : (w.lv i).term.J = some J) (hs : IsSpin J) (hF : (w.lv i).term.F = none) {k : DrawKw}
    (hk : DrawKw.Ok k) (hq : k.squeeze = .dflt ∨ k.squeeze = .yes) (h0 : sq w.I J ≠ 0) (h1 : sq w.I J ≠ 1) :
    ∃ w' parts fr, zTableF i k w = (w', .ok (parts.flatten ++ [fr])) ∧ Draw w' i J ∧ LFrame w w' ∧ fr.level = .fine i ∧ (fr.shown = false ∧ fr.p0.2 = yOf w' i k) ∧
      (∀ r ∈ parts.flatten, fr.box.Has r.p0 ∧ fr.box.Has r.p1) ∧
      List.Forall₂ (fun j rs => ZPart k i w.I J j w' rs) (w'.lv i).subs.vals parts := by
  obtain ⟨w1, e1, e2, -⟩ := lazyHF_ok hv.keys hI hin hJ hs hF
  have hfr : LFrame w w1 := by
    have := lazyHF_frame i w
    rwa [e1] at this
  have hin1 : SubInv w1 := by
    have := hv.steps (lazyHF_steps (C := fun _ _ _ => True) i w)
    rwa [e1] at this
  have hD : Draw w1 i J := ⟨hin1, by rw [hfr.I]; exact hI, by rw [hfr.inAtom]; exact hin, by rw [hfr.term]; exact hJ, hs,
    by rw [hfr.term]; exact hF, by rw [hfr.I]; exact e2⟩
  obtain ⟨w2, parts, e3, ⟨i1, i2, i3⟩, f2, q2⟩ := rowsOf_inv (f := fun j => zTableH j k)
    (Inv := fun v => Draw v i J ∧ v.lv = w1.lv ∧ LFrame w1 v) (Q := fun j v rs => ZPart k i w.I J j v rs)
    (fun a v v' rs hf h => ZPart.mono hf h) (w1.lv i).subs.vals (by
      rintro j hj v ⟨g1, g2, g3⟩
      obtain ⟨F, hjF⟩ := (hyp_vals hin1 hD.hI hD.hJ hs hD.hF j).1 hj
      obtain ⟨v', rs, k1, k2, k3, k4, k5⟩ := zTableH_ok g1 (hjF.frame g3 g2) hk hq (by rw [g3.I, hfr.I]; exact h0) (by rw [g3.I, hfr.I]; exact h1)
      rw [g3.I, hfr.I] at k5
      exact ⟨v', rs, k1, ⟨k2, k4.trans g2, LFrame.trans _ _ _ g3 k3⟩, k3, k5⟩) w1 ⟨hD, rfl, LFrame.refl _⟩
  have hne : (w1.lv i).subs.vals ≠ [] := by
    intro h2
    have := hyp_zip hD
    rw [h2] at this
    cases hzz : hfFs w1.I J with
    | nil => exact hfFs_ne hD.hI hs hzz
    | cons a l => rw [hzz] at this; cases this
  have hrs : parts.flatten ≠ [] := by
    cases hvv : (w1.lv i).subs.vals with
    | nil => exact absurd hvv hne
    | cons a l =>
      rw [hvv] at q2
      cases q2 with
      | cons ha hb =>
        obtain ⟨F, zr, hr, -, -, rfl, -⟩ := ha
        simp
  obtain ⟨b, b1, b2⟩ := pts_box hrs
  obtain ⟨fr, g1, g2, g3, g4, -, -, g5⟩ := levelRow_ok i1 b false hk hq
  refine ⟨w2, parts, fr, ?_, i1, LFrame.trans _ _ _ hfr f2, g2, ⟨g3, g5⟩, ?_, ?_⟩
  · unfold zTableF
    rw [PyM.bind_ok e1, PyM.bind_ok (show PyM.get w1 = (w1, .ok w1) from rfl), PyM.bind_ok e3]
    rw [PyM.bind_ok (show PyM.lift (concatE (w1.lv i).subs.vals parts.flatten) w2 = (w2, .ok _) by rw [concatE_ok hne]; rfl)]
    rw [PyM.bind_ok (show PyM.lift (bbox (rowPts parts.flatten) dfltPad) w2 = (w2, .ok b) by rw [b1]; rfl), PyM.bind_ok g1]
    rfl
  · rw [g4]; exact b2
  · rw [i2]; exact q2

theorem hTableF_ok {w : World} (hv : SubInv w) {i : Nat} {J : ℚ} (hI : IsSpin w.I) (hin : (w.lv i).inAtom = true)
    (hJ : (w.lv i).term.J = some J) (hs : IsSpin J) (hF : (w.lv i).term.F = none) {k : DrawKw}
    (hk : DrawKw.Ok k) (hq : k.squeeze = .dflt ∨ k.squeeze = .yes) :
    ∃ w' rs fr lo, hTableF i k w = (w', .ok (rs ++ [fr])) ∧ Draw w' i J ∧ LFrame w w' ∧ fr.level = .fine i ∧ (fr.shown = false ∧ fr.p0.2 = yOf w' i k) ∧
      (∀ r ∈ rs, fr.box.Has r.p0 ∧ fr.box.Has r.p1) ∧ lo ∈ hfFs w.I J ∧ (∀ F ∈ hfFs w.I J, lo ≤ F) ∧
      List.Forall₂ (fun F r => ∃ j, IsHyp w' i J j F ∧ HRowIs k (k.x0.getD J) lo (hfFs w.I J).length (sq w.I J) j F true r ∧
        bbox [r.p0, r.p1] k.pad = .ok r.box ∧ HHeight w' k i J F r) (hfFs w.I J) rs := by
  obtain ⟨w1, e1, e2, -⟩ := lazyHF_ok hv.keys hI hin hJ hs hF
  have hfr : LFrame w w1 := by
    have := lazyHF_frame i w
    rwa [e1] at this
  have hin1 : SubInv w1 := by
    have := hv.steps (lazyHF_steps (C := fun _ _ _ => True) i w)
    rwa [e1] at this
  have hD : Draw w1 i J := ⟨hin1, by rw [hfr.I]; exact hI, by rw [hfr.inAtom]; exact hin, by rw [hfr.term]; exact hJ, hs,
    by rw [hfr.term]; exact hF, by rw [hfr.I]; exact e2⟩
  obtain ⟨-, lo, -, l1, l2⟩ := spanOf_ok hD
  obtain ⟨rs, e3, e4⟩ := rowsOf_const (f := fun j => do let r ← hRow j none true k; pure [r])
    (P := fun j r => ∃ F, IsHyp w1 i J j F ∧ HRowIs k (k.x0.getD J) lo (hfFs w.I J).length (sq w.I J) j F true r ∧ bbox [r.p0, r.p1] k.pad = .ok r.box ∧ HHeight w1 k i J F r)
    (w := w1) (w1.lv i).subs.vals (by
      intro j hj
      obtain ⟨F, hjF⟩ := (hyp_vals hin1 hD.hI hD.hJ hs hD.hF j).1 hj
      obtain ⟨lo', g2, g3, r, g1, g4, -, g5, g6⟩ := hRow_ok hD hjF none true hk hq
      obtain rfl : lo' = lo := le_antisymm (g3 _ l1) (l2 _ g2)
      rw [hfr.I] at g4
      refine ⟨r, ?_, F, hjF, g4, g5 rfl, g6⟩
      rw [PyM.bind_ok g1]; rfl)
  have hz := hyp_zip hD
  have hne : (w1.lv i).subs.vals ≠ [] := by
    intro h2
    rw [h2] at hz
    cases hzz : hfFs w1.I J with
    | nil => exact hfFs_ne hD.hI hs hzz
    | cons a l => rw [hzz] at hz; cases hz
  have hrs : rs ≠ [] := by
    rintro rfl
    cases hv : (w1.lv i).subs.vals with
    | nil => exact hne hv
    | cons a l => rw [hv] at e4; cases e4
  obtain ⟨b, b1, b2⟩ := pts_box hrs
  obtain ⟨fr, g1, g2, g3, g4, -, -, g5⟩ := levelRow_ok hD b false hk hq
  refine ⟨w1, rs, fr, lo, ?_, hD, hfr, g2, ⟨g3, g5⟩, by rw [g4]; exact b2, by rw [← hfr.I]; exact l1, by rw [← hfr.I]; exact l2, ?_⟩
  · unfold hTableF
    rw [PyM.bind_ok e1, PyM.bind_ok (show PyM.get w1 = (w1, .ok w1) from rfl), PyM.bind_ok e3]
    rw [PyM.bind_ok (show PyM.lift (concatE (w1.lv i).subs.vals rs) w1 = (w1, .ok rs) by rw [concatE_ok hne]; rfl)]
    rw [PyM.bind_ok (show PyM.lift (bbox (rowPts rs) dfltPad) w1 = (w1, .ok b) by rw [b1]; rfl), PyM.bind_ok g1]
    rfl
  · rw [hfr.I] at hz
    have : ∀ (zs : List Nat) (ms : List ℚ) (rs : List DRow), List.Forall₂ (fun j F => IsHyp w1 i J j F) zs ms →
        List.Forall₂ (fun j r => ∃ F, IsHyp w1 i J j F ∧ HRowIs k (k.x0.getD J) lo (hfFs w.I J).length (sq w.I J) j F true r ∧
          bbox [r.p0, r.p1] k.pad = .ok r.box ∧ HHeight w1 k i J F r) zs rs →
        List.Forall₂ (fun F r => ∃ j, IsHyp w1 i J j F ∧ HRowIs k (k.x0.getD J) lo (hfFs w.I J).length (sq w.I J) j F true r ∧
          bbox [r.p0, r.p1] k.pad = .ok r.box ∧ HHeight w1 k i J F r) ms rs := by
      intro zs ms rs ha
      induction ha generalizing rs with
      | nil => intro hb; cases hb; exact .nil
      | @cons j F zs ms ha1 ha2 ih =>
        intro hb
        cases hb with
        | cons hb1 hb2 =>
          obtain ⟨F', hm', hr'⟩ := hb1
          have : F' = F := by have := hm'.F; rw [ha1.F] at this; cases this; rfl
          subst this
          exact .cons ⟨j, ha1, hr'⟩ (ih _ hb2)
    exact this _ _ _ hz e4

theorem sq_eq {I J : ℚ} (hI : IsSpin I) (hJ : IsSpin J) : sq I J = 2 * ⌊J + I⌋ + 1 := by
  have hp : pyInt (J + I) = ⌊J + I⌋ := by
    unfold pyInt
    have h0 : 0 ≤ (J + I).num := Rat.num_nonneg.2 (add_nonneg hJ.nonneg hI.nonneg)
    rw [Int.tdiv_eq_ediv_of_nonneg h0]
    exact (Rat.floor_def (J + I)).symm
  unfold sq
  rw [hp]
  have : (2 * ((⌊J + I⌋ : ℤ) : ℚ) + 1) = ((2 * ⌊J + I⌋ + 1 : ℤ) : ℚ) := by push_cast; ring
  rw [this, pyInt_intCast]

end World
end AtomTk
