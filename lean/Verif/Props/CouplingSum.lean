import Verif.Proofs.NineOrth
import Verif.Props.Coupling

/-! # C95: the shares of an LS composition add up to 100 % (util.py:74-109, atom.py:333-360) -/

namespace AtomTk
open Util Strengths Racah

theorem label_exists {L S : ℚ} (hL : ∃ l : ℕ, L = l ∧ l < 21) (hS : ∃ n : ℕ, 2 * S + 1 = n) : ∃ lab, IsLabel lab L S := by
  obtain ⟨l, h1, h2⟩ := hL
  obtain ⟨n, h3⟩ := hS
  have : l < specLetters.length := by
    have : specLetters.length = 21 := by decide
    omega
  exact ⟨_, l, n, specLetters[l], h1, h3, List.getElem?_eq_getElem this, rfl⟩

theorem label_only {lab lab' : Str} {L S : ℚ} (h : IsLabel lab L S) (h' : IsLabel lab' L S) : lab = lab' := by
  obtain ⟨l, n, X, rfl, h2, h3, rfl⟩ := h
  obtain ⟨l', n', X', h1', h2', h3', rfl⟩ := h'
  have e1 : l = l' := by exact_mod_cast h1'
  have e2 : n = n' := by exact_mod_cast h2.symm.trans h2'
  subst e1 e2
  rw [h3] at h3'
  rw [Option.some.inj h3']

/-- The percentages of a composition are those of the grid points. -/
theorem comp_list {rd : ℝ → ℝ} {PL PS : ℚ → Prop} {A : ℚ → ℚ → ℝ} {xs : List (Str × ℝ)} (h : Composition rd PL PS A xs)
    (G : Finset (ℚ × ℚ)) (hG : ∀ p, p ∈ G ↔ PL p.1 ∧ PS p.2 ∧ A p.1 p.2 ≠ 0)
    (hL : ∀ L, PL L → ∃ l : ℕ, L = l ∧ l < 21) (hS : ∀ S, PS S → ∃ n : ℕ, 2 * S + 1 = n) :
    (xs.map Prod.snd).sum = ∑ p ∈ G, rd (100 * A p.1 p.2 ^ 2) ∧ xs.length = G.card := by
  classical
  have hn : xs.Nodup := h.once.of_map
  have hlab : ∀ p ∈ G, ∃ lab, IsLabel lab p.1 p.2 := fun p hp =>
    label_exists (hL _ ((hG p).1 hp).1) (hS _ ((hG p).1 hp).2.1)
  let lab : ∀ p ∈ G, Str := fun p hp => Classical.choose (hlab p hp)
  have hl : ∀ p hp, IsLabel (lab p hp) p.1 p.2 := fun p hp => Classical.choose_spec (hlab p hp)
  let i : ∀ p ∈ G, Str × ℝ := fun p hp => (lab p hp, rd (100 * A p.1 p.2 ^ 2))
  have hi : ∀ p hp, i p hp ∈ xs.toFinset := by
    intro p hp
    obtain ⟨h1, h2, h3⟩ := (hG p).1 hp
    exact List.mem_toFinset.2 ((h.mem _ _).2 ⟨p.1, p.2, h1, h2, h3, hl p hp, rfl⟩)
  have hinj : ∀ p hp q hq, i p hp = i q hq → p = q := by
    intro p hp q hq e
    have e1 : lab p hp = lab q hq := congrArg Prod.fst e
    have := hl p hp
    rw [e1] at this
    have := label_unique this (hl q hq)
    exact Prod.ext this.1 this.2
  have hsurj : ∀ e ∈ xs.toFinset, ∃ p hp, i p hp = e := by
    intro e he
    obtain ⟨L, S, h1, h2, h3, h4, h5⟩ := (h.mem e.1 e.2).1 (List.mem_toFinset.1 he)
    have hp : (L, S) ∈ G := (hG _).2 ⟨h1, h2, h3⟩
    exact ⟨(L, S), hp, Prod.ext (label_only (hl _ hp) h4) h5.symm⟩
  constructor
  · rw [← List.sum_toFinset Prod.snd hn]
    exact (Finset.sum_bij i hi hinj hsurj (fun p hp => rfl)).symm
  · rw [← List.toFinset_card_of_nodup hn]
    exact (Finset.card_bij i hi hinj hsurj).symm

/-- Squares that add up to one make percentages that add up to a hundred, up to the rounding of each. -/
theorem comp_sum {rd : ℝ → ℝ} {PL PS : ℚ → Prop} {A : ℚ → ℚ → ℝ} {xs : List (Str × ℝ)} (h : Composition rd PL PS A xs)
    (Ls Ss : Finset ℚ) (hLs : ∀ L, L ∈ Ls ↔ PL L) (hSs : ∀ S, S ∈ Ss ↔ PS S)
    (hL : ∀ L, PL L → ∃ l : ℕ, L = l ∧ l < 21) (hS : ∀ S, PS S → ∃ n : ℕ, 2 * S + 1 = n)
    (hA : ∑ L ∈ Ls, ∑ S ∈ Ss, A L S ^ 2 = 1) {ε : ℝ} (hε : ∀ x, |rd x - x| ≤ ε) :
    |(xs.map Prod.snd).sum - 100| ≤ ε * xs.length := by
  classical
  set G : Finset (ℚ × ℚ) := (Ls ×ˢ Ss).filter (fun p => A p.1 p.2 ≠ 0) with hG
  obtain ⟨h1, h2⟩ := comp_list h G (fun p => by rw [hG]; simp [hLs, hSs, and_assoc]) hL hS
  have h3 : ∑ p ∈ G, A p.1 p.2 ^ 2 = 1 := by
    rw [← hA, ← Finset.sum_product', hG]
    refine Finset.sum_filter_of_ne (fun p _ hp h0 => hp ?_)
    rw [h0]; norm_num
  have h4 : ∑ p ∈ G, rd (100 * A p.1 p.2 ^ 2) - 100 = ∑ p ∈ G, (rd (100 * A p.1 p.2 ^ 2) - 100 * A p.1 p.2 ^ 2) := by
    rw [Finset.sum_sub_distrib, ← Finset.mul_sum, h3, mul_one]
  rw [h1, h2, h4]
  calc _ ≤ ∑ p ∈ G, |rd (100 * A p.1 p.2 ^ 2) - 100 * A p.1 p.2 ^ 2| := Finset.abs_sum_le_sum_abs _ _
    _ ≤ ∑ _p ∈ G, ε := Finset.sum_le_sum (fun p _ => hε (100 * A p.1 p.2 ^ 2))
    _ = ε * G.card := by rw [Finset.sum_const, nsmul_eq_mul, mul_comm]

/-- A sum over half-integers as a sum over the doubled numbers. -/
theorem sum_halves (Ls : Finset ℚ) (N : ℕ) (g : ℚ → ℝ) (h : ∀ L ∈ Ls, ∃ n : ℕ, n < N ∧ L = half n)
    (h0 : ∀ n : ℕ, n < N → half n ∉ Ls → g (half n) = 0) : ∑ L ∈ Ls, g L = ∑ n ∈ Finset.range N, g (half (n : ℤ)) := by
  classical
  have e : Ls = ((Finset.range N).filter (fun n : ℕ => half n ∈ Ls)).image (fun n : ℕ => half n) := by
    ext L
    simp only [Finset.mem_image, Finset.mem_filter, Finset.mem_range]
    constructor
    · intro hL
      obtain ⟨n, h1, h2⟩ := h L hL
      exact ⟨n, ⟨h1, h2 ▸ hL⟩, h2.symm⟩
    · rintro ⟨n, ⟨_, h2⟩, rfl⟩
      exact h2
  have e2 : ∑ n ∈ Finset.range N, g (half (n : ℤ)) = ∑ n ∈ (Finset.range N).filter (fun n : ℕ => half n ∈ Ls), g (half (n : ℤ)) := by
    rw [Finset.sum_filter]
    refine Finset.sum_congr rfl (fun n hn => ?_)
    split
    · rfl
    · rename_i hne
      exact h0 n (Finset.mem_range.1 hn) hne
  rw [e2]
  conv_lhs => rw [e]
  refine Finset.sum_image (fun a _ b _ hab => ?_)
  have := half_inj hab
  exact_mod_cast this

theorem couples_tri {a b c : ℕ} : Couples (half a) (half b) (half c) ↔ Tri a b c := by
  unfold Couples Tri half
  have e : |(((a : ℤ) : ℚ) / 2 - ((b : ℤ) : ℚ) / 2)| = (|((a : ℤ) - b)| : ℤ) / 2 := by
    rw [← sub_div, abs_div]
    push_cast
    norm_num
  rw [e]
  constructor
  · rintro ⟨h1, h2, n, h3⟩
    have h1' : |(a : ℤ) - b| ≤ c := by
      have : ((|((a : ℤ) - b)| : ℤ) : ℚ) ≤ ((c : ℤ) : ℚ) := by linarith
      exact_mod_cast this
    have h2' : (c : ℤ) ≤ a + b := by
      have : ((c : ℤ) : ℚ) ≤ (a : ℤ) + (b : ℤ) := by linarith
      exact_mod_cast this
    have h3' : (c : ℤ) = a + b + 2 * n := by
      have : ((c : ℤ) : ℚ) = ((a + b + 2 * n : ℤ) : ℚ) := by push_cast at h3 ⊢; linarith
      exact_mod_cast this
    exact ⟨by omega, h1', h2'⟩
  · rintro ⟨h1, h2, h3⟩
    have h2' : ((|((a : ℤ) - b)| : ℤ) : ℚ) ≤ ((c : ℤ) : ℚ) := by exact_mod_cast h2
    have h3' : ((c : ℤ) : ℚ) ≤ (a : ℤ) + (b : ℤ) := by exact_mod_cast h3
    refine ⟨by linarith, by linarith, ((c : ℤ) - a - b) / 2, ?_⟩
    have : (c : ℤ) = a + b + 2 * (((c : ℤ) - a - b) / 2) := by omega
    have : ((c : ℤ) : ℚ) = ((a + b + 2 * (((c : ℤ) - a - b) / 2) : ℤ) : ℚ) := by exact_mod_cast this
    push_cast at this ⊢
    linarith

theorem spin_nat_half {x : ℚ} (h : IsSpin x) : ∃ n : ℕ, x = half n := by
  obtain ⟨n, rfl⟩ := h
  exact ⟨n, by unfold half; simp⟩

/-- The Finset of the values two numbers couple to. -/
theorem couples_finset {a b : ℕ} : ∃ Ls : Finset ℚ, (∀ L, L ∈ Ls ↔ Couples (half a) (half b) L) ∧
    ∀ g : ℚ → ℝ, (∀ n : ℕ, ¬Tri a b n → g (half n) = 0) → ∑ L ∈ Ls, g L = ∑ n ∈ Finset.range (a + b + 1), g (half (n : ℤ)) := by
  classical
  have ha : IsSpin (half a) := ⟨a, by unfold half; simp⟩
  have hb : IsSpin (half b) := ⟨b, by unfold half; simp⟩
  refine ⟨(arange |half a - half b| (|half a + half b| + 1)).toFinset, fun L => by rw [List.mem_toFinset, couples_range ha hb], ?_⟩
  intro g hg
  refine sum_halves _ _ g ?_ ?_
  · intro L hL
    rw [List.mem_toFinset, couples_range ha hb] at hL
    obtain ⟨n, rfl⟩ := spin_nat_half (couples_spin ha hb hL).1
    have := (couples_tri.1 hL).2.2
    exact ⟨n, by omega, rfl⟩
  · intro n _ hn
    rw [List.mem_toFinset, couples_range ha hb] at hn
    exact hg n (fun h => hn (couples_tri.2 h))

theorem half_even (n : ℕ) : (n : ℚ) = half ((2 * n : ℕ) : ℤ) := by unfold half; push_cast; ring

theorem two_half (n : ℤ) : 2 * half n + 1 = ((n + 1 : ℤ) : ℚ) := by unfold half; push_cast; ring

/-- C95 for LK coupling: the percentages of a possible state add up to 100, up to the rounding of each. -/
theorem C95_lk {W : Wig} (hW : W.Good) (rd : ℝ → ℝ) (J K sc so : ℚ) (L : ℕ) (hL : L ≤ 20) (hJ : IsSpin J) (hK : IsSpin K)
    (hsc : IsSpin sc) (hso : IsSpin so) (h1 : Couples L sc K) (h2 : Couples K so J) {ε : ℝ} (hε : ∀ x, |rd x - x| ≤ ε) :
    ∃ xs, readableLK W rd J L K sc so = .ok xs ∧ |(xs.map Prod.snd).sum - 100| ≤ ε * xs.length := by
  obtain ⟨xs, hx, hc⟩ := C91_lk hW rd J K sc so L hL hJ hK hsc hso
  refine ⟨xs, hx, ?_⟩
  obtain ⟨j, rfl⟩ := spin_nat_half hJ
  obtain ⟨k, rfl⟩ := spin_nat_half hK
  obtain ⟨c, rfl⟩ := spin_nat_half hsc
  obtain ⟨o, rfl⟩ := spin_nat_half hso
  obtain ⟨Ss, hSs, hsum⟩ := couples_finset (a := c) (b := o)
  refine comp_sum hc {(L : ℚ)} Ss (by simp) hSs (fun L' h => ⟨L, h, by omega⟩) (fun S h => (couples_spin hsc hso h).2) ?_ hε
  rw [Finset.sum_singleton]
  have e : ∀ s : ℕ, specLK (half j) L (half k) (half c) (half o) (half s) ^ 2 =
      (((s : ℤ) : ℝ) + 1) * (((k : ℤ) : ℝ) + 1) * w6 ((2 * L : ℕ) : ℤ) c k o j s ^ 2 := by
    intro s
    unfold specLK
    rw [half_even L, six_half, mul_pow, Real.sq_sqrt, two_half, two_half]
    · push_cast; ring
    · rw [two_half, two_half]; positivity
  rw [hsum]
  · rw [Finset.sum_congr rfl (fun s _ => e s)]
    rw [half_even L] at h1
    have t2 := couples_tri.1 h2
    exact w6_norm2 (couples_tri.1 h1) t2.rot _ (by push_cast; omega)
  · intro n hn
    rw [e, w6_zero, zero_pow two_ne_zero, mul_zero]
    exact fun h => hn h.2.2.1.swap

/-- C95 for jK coupling (what holds): for `lc + lo ≤ 20`, with a sign whose square is one. -/
theorem C95_jk_partial {W : Wig} (hW : W.Good) (sign : ℚ → ℝ) (rd : ℝ → ℝ) (J Jc K sc so : ℚ) (lc lo : ℕ) (hL : lc + lo ≤ 20)
    (hJ : IsSpin J) (hJc : IsSpin Jc) (hK : IsSpin K) (hsc : IsSpin sc) (hso : IsSpin so)
    (hs : ∀ L, Couples lc lo L → sign (-lc - lo - 2 * sc - so - K - L - J) ^ 2 = 1)
    (h1 : Couples lc sc Jc) (h2 : Couples Jc lo K) (h3 : Couples K so J) {ε : ℝ} (hε : ∀ x, |rd x - x| ≤ ε) :
    ∃ xs, readableJK W sign rd J Jc K lc sc lo so = .ok xs ∧ |(xs.map Prod.snd).sum - 100| ≤ ε * xs.length := by
  obtain ⟨xs, hx, hc⟩ := C91_jk_partial hW sign rd J Jc K sc so lc lo hL hJ hJc hK hsc hso hs
  refine ⟨xs, hx, ?_⟩
  obtain ⟨j, rfl⟩ := spin_nat_half hJ
  obtain ⟨jc, rfl⟩ := spin_nat_half hJc
  obtain ⟨k, rfl⟩ := spin_nat_half hK
  obtain ⟨c, rfl⟩ := spin_nat_half hsc
  obtain ⟨o, rfl⟩ := spin_nat_half hso
  have hLn : ∀ L, Couples lc lo L → ∃ l : ℕ, L = l ∧ l < 21 := fun L h => by
    obtain ⟨l, h4, h5⟩ := couples_nat h
    exact ⟨l, h4, by omega⟩
  rw [half_even lc, half_even lo] at hc
  rw [half_even lc] at h1
  rw [half_even lo] at h2
  rw [half_even lc, half_even lo] at hLn
  obtain ⟨Ls, hLs, hlsum⟩ := couples_finset (a := 2 * lc) (b := 2 * lo)
  obtain ⟨Ss, hSs, hssum⟩ := couples_finset (a := c) (b := o)
  refine comp_sum hc Ls Ss hLs hSs hLn (fun S h => (couples_spin hsc hso h).2) ?_ hε
  have e : ∀ l s : ℕ, specJK (half j) (half jc) (half k) (half ((2 * lc : ℕ) : ℤ)) (half c) (half ((2 * lo : ℕ) : ℤ)) (half o) (half l) (half s) ^ 2 =
      (((jc : ℤ) : ℝ) + 1) * (((l : ℤ) : ℝ) + 1) * (((k : ℤ) : ℝ) + 1) * (((s : ℤ) : ℝ) + 1) *
        (w6 c (2 * lc : ℕ) jc (2 * lo : ℕ) k l * w6 l c k o j s) ^ 2 := by
    intro l s
    unfold specJK
    rw [six_half, six_half, mul_assoc, mul_pow, Real.sq_sqrt, two_half, two_half, two_half, two_half]
    · push_cast; ring
    · rw [two_half, two_half, two_half, two_half]; positivity
  have e2 : ∀ l : ℕ, ∑ S ∈ Ss, specJK (half j) (half jc) (half k) (half ((2 * lc : ℕ) : ℤ)) (half c) (half ((2 * lo : ℕ) : ℤ)) (half o) (half l) S ^ 2 =
      ∑ s ∈ Finset.range (c + o + 1), (((jc : ℤ) : ℝ) + 1) * (((l : ℤ) : ℝ) + 1) * (((k : ℤ) : ℝ) + 1) * (((s : ℤ) : ℝ) + 1) *
        (w6 c (2 * lc : ℕ) jc (2 * lo : ℕ) k l * w6 l c k o j s) ^ 2 := by
    intro l
    rw [hssum]
    · exact Finset.sum_congr rfl (fun s _ => e l s)
    · intro n hn
      rw [e, w6_zero (a := (l : ℤ)), mul_zero, zero_pow two_ne_zero, mul_zero]
      exact fun h => hn h.2.2.1.swap
  rw [hlsum]
  · rw [Finset.sum_congr rfl (fun l _ => e2 l)]
    exact w66_norm (couples_tri.1 h1).swap (couples_tri.1 h2).rot (couples_tri.1 h3).rot _ _ (by push_cast; omega) (by push_cast; omega)
  · intro n hn
    rw [e2]
    refine Finset.sum_eq_zero (fun s _ => ?_)
    rw [w6_zero, zero_mul, zero_pow two_ne_zero, mul_zero]
    exact fun h => hn h.2.2.1.swap

theorem nine_half (a b c d e f g h i : ℤ) : nine (half a) (half b) (half c) (half d) (half e) (half f) (half g) (half h) (half i) =
    w9 a b c d e f g h i := by
  unfold nine
  simp only [floor_half]

theorem w9_zero {a b c d e f g h i : ℤ} (hn : ¬(Tri a b c ∧ Tri d e f ∧ Tri g h i ∧ Tri a d g ∧ Tri b e h ∧ Tri c f i)) :
    w9 a b c d e f g h i = 0 := by
  unfold w9
  refine Finset.sum_eq_zero (fun x _ => ?_)
  by_contra h0
  have h1 := mul_ne_zero_iff.1 h0
  have h2 := mul_ne_zero_iff.1 h1.2
  have h3 := mul_ne_zero_iff.1 h2.1
  have t1 := w6_tri h3.1
  have t2 := w6_tri h3.2
  have t3 := w6_tri h2.2
  exact hn ⟨t1.1, t2.1, t3.1, t3.2.1.rot, t2.2.2.1.swap.swap, t1.2.2.2.rot.rot⟩

/-- C95 for jj coupling (what holds): for `lc + lo ≤ 20`. -/
theorem C95_jj_partial {W : Wig} (hW : Faithful W9 W.nine) (rd : ℝ → ℝ) (J Jc Jo sc so : ℚ) (lc lo : ℕ) (hL : lc + lo ≤ 20)
    (hJ : IsSpin J) (hJc : IsSpin Jc) (hJo : IsSpin Jo) (hsc : IsSpin sc) (hso : IsSpin so)
    (h1 : Couples lc sc Jc) (h2 : Couples lo so Jo) (h3 : Couples Jc Jo J) {ε : ℝ} (hε : ∀ x, |rd x - x| ≤ ε) :
    ∃ xs, readableJJ W rd J Jc Jo lc sc lo so = .ok xs ∧ |(xs.map Prod.snd).sum - 100| ≤ ε * xs.length := by
  obtain ⟨xs, hx, hc⟩ := C91_jj_partial hW rd J Jc Jo sc so lc lo hL hJ hJc hJo hsc hso
  refine ⟨xs, hx, ?_⟩
  obtain ⟨j, rfl⟩ := spin_nat_half hJ
  obtain ⟨jc, rfl⟩ := spin_nat_half hJc
  obtain ⟨jo, rfl⟩ := spin_nat_half hJo
  obtain ⟨c, rfl⟩ := spin_nat_half hsc
  obtain ⟨o, rfl⟩ := spin_nat_half hso
  have hLn : ∀ L, Couples lc lo L → ∃ l : ℕ, L = l ∧ l < 21 := fun L h => by
    obtain ⟨l, h4, h5⟩ := couples_nat h
    exact ⟨l, h4, by omega⟩
  rw [half_even lc, half_even lo] at hc
  rw [half_even lc] at h1
  rw [half_even lo] at h2
  rw [half_even lc, half_even lo] at hLn
  obtain ⟨Ls, hLs, hlsum⟩ := couples_finset (a := 2 * lc) (b := 2 * lo)
  obtain ⟨Ss, hSs, hssum⟩ := couples_finset (a := c) (b := o)
  refine comp_sum hc Ls Ss hLs hSs hLn (fun S h => (couples_spin hsc hso h).2) ?_ hε
  have e : ∀ l s : ℕ, specJJ (half j) (half jc) (half jo) (half ((2 * lc : ℕ) : ℤ)) (half c) (half ((2 * lo : ℕ) : ℤ)) (half o) (half l) (half s) ^ 2 =
      (((jc : ℤ) : ℝ) + 1) * (((jo : ℤ) : ℝ) + 1) * (((l : ℤ) : ℝ) + 1) * (((s : ℤ) : ℝ) + 1) *
        w9 (2 * lc : ℕ) c jc (2 * lo : ℕ) o jo l s j ^ 2 := by
    intro l s
    unfold specJJ
    rw [nine_half, mul_pow, Real.sq_sqrt, two_half, two_half, two_half, two_half]
    · push_cast; ring
    · rw [two_half, two_half, two_half, two_half]; positivity
  have e2 : ∀ l : ℕ, ∑ S ∈ Ss, specJJ (half j) (half jc) (half jo) (half ((2 * lc : ℕ) : ℤ)) (half c) (half ((2 * lo : ℕ) : ℤ)) (half o) (half l) S ^ 2 =
      ∑ s ∈ Finset.range (c + o + 1), (((jc : ℤ) : ℝ) + 1) * (((jo : ℤ) : ℝ) + 1) * (((l : ℤ) : ℝ) + 1) * (((s : ℤ) : ℝ) + 1) *
        w9 (2 * lc : ℕ) c jc (2 * lo : ℕ) o jo l s j ^ 2 := by
    intro l
    rw [hssum]
    · exact Finset.sum_congr rfl (fun s _ => e l s)
    · intro n hn
      rw [e, w9_zero, zero_pow two_ne_zero, mul_zero]
      exact fun h => hn h.2.2.2.2.1
  rw [hlsum]
  · rw [Finset.sum_congr rfl (fun l _ => e2 l)]
    exact w9_norm (couples_tri.1 h1) (couples_tri.1 h2) (couples_tri.1 h3) _ _ (by push_cast; omega) (by push_cast; omega)
  · intro n hn
    rw [e2]
    refine Finset.sum_eq_zero (fun s _ => ?_)
    rw [w9_zero, zero_pow two_ne_zero, mul_zero]
    exact fun h => hn h.2.2.2.1

/-- C95 in full: the composition of a jj-coupled term, from its text, adds up to 100 when its numbers can couple to `j`. -/
def C95_full : Prop := ∀ (W : Wig), W.Good → Faithful W9 W.nine → ∀ (sign : ℚ → ℝ) (conf term : Str) (j jc jo : ℚ) (q : QNums),
  getTermCoupling term = .JJ → getQuantumNums conf term = .ok q → q.jc = some jc → q.jo = some jo → IsSpin j → Couples jc jo j →
  ∃ xs, termToLS W sign id conf term j = .ok (some xs) ∧ (xs.map Prod.snd).sum = 100

/-- C95 from the text of a jj-coupled term (what holds): with quantum numbers that couple, exactly 100 without rounding. -/
theorem C95_term_partial {W : Wig} (hW : Faithful W9 W.nine) (sign : ℚ → ℝ) (conf term : Str) (j jc jo sc so : ℚ) (lc lo : ℕ) (q : QNums)
    (hc : getTermCoupling term = .JJ) (hq : getQuantumNums conf term = .ok q) (h1 : q.jc = some jc) (h2 : q.jo = some jo)
    (h3 : q.lc = some (lc : ℚ)) (h4 : q.sc = some sc) (h5 : q.lo = some (lo : ℚ)) (h6 : q.so = some so) (hL : lc + lo ≤ 20)
    (hj : IsSpin j) (hjc : IsSpin jc) (hjo : IsSpin jo) (hsc : IsSpin sc) (hso : IsSpin so)
    (c1 : Couples lc sc jc) (c2 : Couples lo so jo) (c3 : Couples jc jo j) :
    ∃ xs, termToLS W sign id conf term j = .ok (some xs) ∧ (xs.map Prod.snd).sum = 100 := by
  obtain ⟨xs, hx, hs⟩ := C95_jj_partial hW id j jc jo sc so lc lo hL hj hjc hjo hsc hso c1 c2 c3 (ε := 0) (by simp)
  refine ⟨xs, ?_, ?_⟩
  · rw [(C91_term W sign id conf term j q hq).2.2.1 hc jc jo lc sc lo so h1 h2 h3 h4 h5 h6, hx]
    rfl
  · rw [zero_mul] at hs
    have := abs_nonpos_iff.1 hs
    linarith

/-- C95 fails: the electron of Yb+ `(7/2,1/2)*` is given as `6s<1/2>`, from which the code reads spin zero; the composition is empty. -/
theorem C95_fails : ¬C95_full := by
  intro h
  obtain ⟨q, hq, e1, e2, e3, e4, e5, e6⟩ : ∃ q, getQuantumNums "4f13.(2F*<7/2>).6s<1/2>".toList "(7/2,1/2)*".toList = .ok q ∧
      q.jc = some (7/2) ∧ q.jo = some (1/2) ∧ q.lc = some ((3 : ℕ) : ℚ) ∧ q.sc = some (1/2) ∧ q.lo = some ((0 : ℕ) : ℚ) ∧ q.so = some 0 :=
    ⟨{ lc := some 3, sc := some (1/2), lo := some 0, so := some 0, jc := some (7/2), jo := some (1/2) }, by decide +kernel, by decide +kernel,
      by decide +kernel, by decide +kernel, by decide +kernel, by decide +kernel, by decide +kernel⟩
  have hcp : getTermCoupling "(7/2,1/2)*".toList = .JJ := by decide +kernel
  have s0 : IsSpin 0 := ⟨0, by simp⟩
  have s1 : IsSpin (1/2) := ⟨1, by norm_num⟩
  have s7 : IsSpin (7/2) := ⟨7, by norm_num⟩
  have s4 : IsSpin 4 := ⟨8, by norm_num⟩
  obtain ⟨xs, h1, h2⟩ := h fullWig fullWig_good.1 fullWig_good.2 (fun _ => 1) _ _ 4 (7/2) (1/2) q hcp hq e1 e2 s4 ⟨by norm_num, by norm_num, 0, by norm_num⟩
  rw [(C91_term fullWig (fun _ => 1) id _ _ 4 q hq).2.2.1 hcp _ _ _ _ _ _ e1 e2 e3 e4 e5 e6] at h1
  obtain ⟨ys, hy, hc⟩ := C91_jj_partial fullWig_good.2 id 4 (7/2) (1/2) (1/2) 0 3 0 (by norm_num) s4 s7 s1 s1 s0
  rw [hy] at h1
  obtain rfl : ys = xs := Option.some.inj (Except.ok.inj h1)
  have hz : ys = [] := by
    refine List.eq_nil_iff_forall_not_mem.2 (fun e he => ?_)
    obtain ⟨L, S, g1, g2, g3, -, -⟩ := (hc.mem e.1 e.2).1 he
    refine g3 ?_
    obtain ⟨l, rfl⟩ := spin_nat_half (couples_spin (isSpin_nat 3) (isSpin_nat 0) g1).1
    obtain ⟨s, rfl⟩ := spin_nat_half (couples_spin s1 s0 g2).1
    have := nine_half 6 1 7 0 0 1 l s 8
    have f0 : half 0 = 0 := by unfold half; simp
    have f1 : half 1 = 1/2 := by unfold half; norm_num
    have f6 : half 6 = ((3 : ℕ) : ℚ) := by unfold half; norm_num
    have f7 : half 7 = 7/2 := by unfold half; norm_num
    have f8 : half 8 = 4 := by unfold half; norm_num
    rw [f1, f6, f7, f8, f0] at this
    unfold specJJ
    rw [Nat.cast_zero, this, w9_zero, zero_mul]
    rintro ⟨-, ⟨hodd, -⟩, -⟩
    revert hodd
    decide
  rw [hz] at h2
  norm_num at h2

/-- The numbers of the Yb+ level `4f13.(2F*<7/2>).5d.6s.(3D) 3[3/2]*`, J = 5/2, meet the hypotheses of `C95_jk_partial`. -/
example : Couples ((3 : ℕ) : ℚ) (1/2) (7/2) ∧ Couples (7/2) ((2 : ℕ) : ℚ) (3/2) ∧ Couples (3/2) 1 (5/2) :=
  ⟨⟨by norm_num [abs_le], by norm_num, 0, by norm_num⟩, ⟨by norm_num [abs_le], by norm_num, -4, by norm_num⟩,
    ⟨by norm_num [abs_le], by norm_num, 0, by norm_num⟩⟩

/-- Those of a jj-coupled pair of p electrons with J = 2, and of an LK-coupled level. -/
example : Couples ((1 : ℕ) : ℚ) (1/2) (3/2) ∧ Couples ((1 : ℕ) : ℚ) (1/2) (1/2) ∧ Couples (3/2) (1/2) 2 ∧ Couples ((4 : ℕ) : ℚ) (1/2) (9/2) ∧
    Couples (9/2) (1/2) 5 :=
  ⟨⟨by norm_num [abs_le], by norm_num, 0, by norm_num⟩, ⟨by norm_num [abs_le], by norm_num, -1, by norm_num⟩,
    ⟨by norm_num [abs_le], by norm_num, 0, by norm_num⟩, ⟨by norm_num [abs_le], by norm_num, 0, by norm_num⟩,
    ⟨by norm_num [abs_le], by norm_num, 0, by norm_num⟩⟩

/-- Without rounding the sum is exact. -/
example : ∃ xs, readableLK fullWig id (11/2) 4 5 (1 : ℚ) (1/2) = .ok xs ∧ |(xs.map Prod.snd).sum - 100| ≤ 0 * xs.length :=
  C95_lk fullWig_good.1 id (11/2) 5 1 (1/2) 4 (by norm_num) ⟨11, by norm_num⟩ ⟨10, by norm_num⟩ ⟨2, by norm_num⟩ ⟨1, by norm_num⟩
    ⟨by norm_num [abs_le], by norm_num, 0, by norm_num⟩ ⟨by norm_num [abs_le], by norm_num, 0, by norm_num⟩ (by simp)

end AtomTk
