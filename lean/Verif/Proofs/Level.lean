import Verif.Model.Level
import Verif.Proofs.Text
import Mathlib.Tactic.FieldSimp
import Mathlib.Algebra.BigOperators.Group.List.Lemmas

/-! # Lemmas on hyperfine and Zeeman structure -/

namespace AtomTk
open Util

/-! ## Unit-step ranges -/

theorem arange_nat (a b : ℚ) (n : ℕ) (h : b = a + n) : arange a b = (List.range n).map (fun (i : ℕ) => a + (i : ℚ)) := by
  subst h
  have : ⌈a + (n : ℚ) - a⌉ = (n : ℤ) := by
    rw [add_sub_cancel_left]; exact Int.ceil_natCast n
  simp [arange]

theorem mem_arange_nat {a b : ℚ} {n : ℕ} (h : b = a + n) (x : ℚ) : x ∈ arange a b ↔ ∃ i : ℕ, i < n ∧ x = a + i := by
  rw [arange_nat a b n h]
  simp only [List.mem_map, List.mem_range]
  constructor
  · rintro ⟨i, hi, rfl⟩; exact ⟨i, hi, rfl⟩
  · rintro ⟨i, hi, rfl⟩; exact ⟨i, hi, rfl⟩

theorem arange_nodup {a b : ℚ} {n : ℕ} (h : b = a + n) : (arange a b).Nodup := by
  rw [arange_nat a b n h]
  refine List.Nodup.map ?_ List.nodup_range
  intro i j hij
  simpa using hij

theorem arange_length {a b : ℚ} {n : ℕ} (h : b = a + n) : (arange a b).length = n := by
  rw [arange_nat a b n h]; simp

/-- Telescoping sums over a unit-step range. -/
theorem sum_telescope (f G : ℚ → ℚ) (hG : ∀ x, f x = G x - G (x - 1)) (a : ℚ) (n : ℕ) :
    (((List.range n).map (fun (i : ℕ) => a + (i : ℚ))).map f).sum = G (a + n - 1) - G (a - 1) := by
  induction n with
  | zero => simp
  | succ n ih =>
    rw [List.range_succ, List.map_append, List.map_append, List.sum_append, ih]
    simp only [List.map_cons, List.map_nil, List.sum_cons, List.sum_nil, add_zero]
    rw [hG (a + n)]
    push_cast
    have e : a + ((n : ℚ) + 1) - 1 = a + n := by ring
    rw [e]; ring

/-- The number of values of F. -/
theorem spin_count {I J : ℚ} (hI : IsSpin I) (hJ : IsSpin J) :
    ∃ n : ℕ, J + I + 1 = |J - I| + n ∧ (n : ℚ) = 2 * min I J + 1 := by
  obtain ⟨a, rfl⟩ := hI
  obtain ⟨b, rfl⟩ := hJ
  refine ⟨min a b + 1, ?_, ?_⟩
  · rcases le_total a b with h | h
    · have h' : ((a : ℚ)) ≤ b := by exact_mod_cast h
      rw [abs_of_nonneg (by linarith), min_eq_left h]; push_cast; ring
    · have h' : ((b : ℚ)) ≤ a := by exact_mod_cast h
      rw [abs_of_nonpos (by linarith), min_eq_right h]; push_cast; ring
  · rcases le_total a b with h | h
    · have h' : ((a : ℚ)) ≤ b := by exact_mod_cast h
      rw [min_eq_left h, min_eq_left (by linarith)]; push_cast; ring
    · have h' : ((b : ℚ)) ≤ a := by exact_mod_cast h
      rw [min_eq_right h, min_eq_right (by linarith)]; push_cast; ring

theorem spin_count_m {F : ℚ} (hF : IsSpin F) : ∃ n : ℕ, F + 1 = -F + n ∧ (n : ℚ) = 2 * F + 1 := by
  obtain ⟨a, rfl⟩ := hF
  exact ⟨a + 1, by push_cast; ring, by push_cast; ring⟩

theorem IsSpin.nonneg {q : ℚ} (h : IsSpin q) : 0 ≤ q := by
  obtain ⟨n, rfl⟩ := h; positivity

/-- Every F of the multiplet is a spin. -/
theorem hfFs_spin {I J F : ℚ} (hI : IsSpin I) (hJ : IsSpin J) (hF : F ∈ hfFs I J) : IsSpin F := by
  obtain ⟨n, hn, _⟩ := spin_count hI hJ
  obtain ⟨i, _, rfl⟩ := (mem_arange_nat hn F).1 hF
  obtain ⟨a, rfl⟩ := hI
  obtain ⟨b, rfl⟩ := hJ
  rcases le_total a b with h | h
  · have h' : ((a : ℚ)) ≤ b := by exact_mod_cast h
    refine ⟨b - a + 2 * i, ?_⟩
    rw [abs_of_nonneg (by linarith)]; push_cast [Nat.cast_sub h]; ring
  · have h' : ((b : ℚ)) ≤ a := by exact_mod_cast h
    refine ⟨a - b + 2 * i, ?_⟩
    rw [abs_of_nonpos (by linarith)]; push_cast [Nat.cast_sub h]; ring

theorem zMs_half {F m : ℚ} (hF : IsSpin F) (hm : m ∈ zMs F) : IsHalfInt m := by
  obtain ⟨n, hn, _⟩ := spin_count_m hF
  obtain ⟨i, _, rfl⟩ := (mem_arange_nat hn m).1 hm
  obtain ⟨a, rfl⟩ := hF
  exact ⟨-(a : ℤ) + 2 * i, by push_cast; ring⟩

/-! ## Dictionaries filled under injective keys -/

theorem Dict.get?_set {κ α} [DecidableEq κ] (d : Dict κ α) (k k' : κ) (v : α) :
    (d.set k v).get? k' = if k = k' then some v else d.get? k' := by
  induction d with
  | nil => simp [Dict.set, Dict.get?]
  | cons p t ih =>
    obtain ⟨a, b⟩ := p
    by_cases h : a = k
    · subst h
      by_cases h2 : a = k' <;> simp [Dict.set, Dict.get?, h2]
    · by_cases h2 : a = k'
      · subst h2
        simp [Dict.set, Dict.get?, h, Ne.symm h]
      · simp [Dict.set, Dict.get?, h, h2, ih]

theorem Dict.set_fresh {κ α} [DecidableEq κ] (d : Dict κ α) (k : κ) (v : α) (h : k ∉ d.map Prod.fst) :
    d.set k v = d ++ [(k, v)] := by
  induction d with
  | nil => rfl
  | cons p t ih =>
    obtain ⟨a, b⟩ := p
    simp only [List.map_cons, List.mem_cons, not_or] at h
    simp [Dict.set, Ne.symm h.1, ih h.2]

/-- Filling a dictionary under pairwise different keys appends one entry per element. -/
theorem Dict.fill {κ α} [DecidableEq κ] (key : α → κ) (l : List α) (d : Dict κ α)
    (h1 : ∀ x ∈ l, key x ∉ d.map Prod.fst) (h2 : l.Pairwise (fun x y => key x ≠ key y)) :
    l.foldl (fun d x => d.set (key x) x) d = d ++ l.map (fun x => (key x, x)) := by
  induction l generalizing d with
  | nil => simp
  | cons x xs ih =>
    rw [List.pairwise_cons] at h2
    simp only [List.foldl_cons]
    rw [Dict.set_fresh d _ _ (h1 x (by simp)), ih _ _ h2.2]
    · simp
    · intro y hy
      simp only [List.map_append, List.map_cons, List.map_nil, List.mem_append, List.mem_singleton, not_or]
      exact ⟨h1 y (by simp [hy]), (h2.1 y hy).symm⟩

theorem Dict.get?_map_key {κ α} [DecidableEq κ] (key : α → κ) (l : List α) (k : κ) (x : α)
    (h : l.Pairwise (fun x y => key x ≠ key y)) :
    Dict.get? (l.map (fun x => (key x, x))) k = some x ↔ x ∈ l ∧ key x = k := by
  induction l with
  | nil => simp [Dict.get?]
  | cons y ys ih =>
    rw [List.pairwise_cons] at h
    simp only [List.map_cons, Dict.get?]
    by_cases hk : key y = k
    · simp only [if_pos hk, Option.some.injEq, List.mem_cons]
      constructor
      · rintro rfl; exact ⟨.inl rfl, hk⟩
      · rintro ⟨rfl | hx, hxk⟩
        · rfl
        · exact absurd (hk.trans hxk.symm) (h.1 x hx)
    · simp only [if_neg hk, ih h.2, List.mem_cons]
      constructor
      · rintro ⟨a, b⟩; exact ⟨.inr a, b⟩
      · rintro ⟨rfl | hx, hxk⟩
        · exact absurd hxk hk
        · exact ⟨hx, hxk⟩

theorem fKey_inj {a b : ℚ} (ha : IsHalfInt a) (hb : IsHalfInt b) (h : fKey a = fKey b) : a = b :=
  numToFrac_inj ha hb (List.append_cancel_left h)

theorem mKey_inj {a b : ℚ} (ha : IsHalfInt a) (hb : IsHalfInt b) (h : mKey a = mKey b) : a = b :=
  numToFrac_inj ha hb (List.append_cancel_left h)

theorem hfDict_eq {I J : ℚ} (hI : IsSpin I) (hJ : IsSpin J) :
    hfDict I J = (hfFs I J).map (fun f => (fKey f, f)) ∧ (hfFs I J).Pairwise (fun x y => fKey x ≠ fKey y) := by
  obtain ⟨n, hn, _⟩ := spin_count hI hJ
  have hp : (hfFs I J).Pairwise (fun x y => fKey x ≠ fKey y) := by
    have : (hfFs I J).Nodup := arange_nodup hn
    refine List.Pairwise.imp_of_mem ?_ this
    intro a b ha hb hne h
    exact hne (fKey_inj (hfFs_spin hI hJ ha).isHalfInt (hfFs_spin hI hJ hb).isHalfInt h)
  refine ⟨?_, hp⟩
  have := Dict.fill fKey (hfFs I J) [] (by simp) hp
  simpa [hfDict] using this

theorem zDict_eq {F : ℚ} (hF : IsSpin F) :
    zDict F = (zMs F).map (fun m => (mKey m, m)) ∧ (zMs F).Pairwise (fun x y => mKey x ≠ mKey y) := by
  obtain ⟨n, hn, _⟩ := spin_count_m hF
  have hp : (zMs F).Pairwise (fun x y => mKey x ≠ mKey y) := by
    have : (zMs F).Nodup := arange_nodup hn
    refine List.Pairwise.imp_of_mem ?_ this
    intro a b ha hb hne h
    exact hne (mKey_inj (zMs_half hF ha) (zMs_half hF hb) h)
  refine ⟨?_, hp⟩
  have := Dict.fill mKey (zMs F) [] (by simp) hp
  simpa [zDict] using this

/-! ## The hyperfine shift -/

/-- Closed form of the electric-quadrupole factor (0 where the code does not evaluate it). -/
def e2 (I J F : ℚ) : ℚ :=
  if J ≤ 1 / 2 ∨ I ≤ 1 / 2 then 0
  else (3 * iDotJ I J F ^ 2 + 3 / 2 * iDotJ I J F - I * (I + 1) * J * (J + 1)) /
    (2 * I * (2 * I - 1) * J * (2 * J - 1))

/-- Closed form of the octupole factor. -/
def m3 (I J F : ℚ) : ℚ :=
  if J ≤ 1 ∨ I ≤ 1 then 0
  else (10 * iDotJ I J F ^ 3 + 20 * iDotJ I J F ^ 2
        + 2 * iDotJ I J F * (-3 * I * (I + 1) * J * (J + 1) + I * (I + 1) + J * (J + 1) + 3)
        - 5 * I * (I + 1) * J * (J + 1)) /
      (I * (I - 1) * J * (J - 1) * (2 * J - 1))

theorem fE2_ok (I J F : ℚ) : fE2 I J F = .ok (e2 I J F) := by
  unfold fE2 e2
  split
  · rfl
  · rename_i h
    push Not at h
    have h1 : I ≠ 0 := by intro h0; rw [h0] at h; norm_num at h
    have h2 : J ≠ 0 := by intro h0; rw [h0] at h; norm_num at h
    have h3 : 2 * I - 1 ≠ 0 := by intro h0; linarith [h.2]
    have h4 : 2 * J - 1 ≠ 0 := by intro h0; linarith [h.1]
    simp only [pyDiv]
    rw [if_neg]
    simp [h1, h2, h3, h4]

theorem fM3_ok (I J F : ℚ) : fM3 I J F = .ok (m3 I J F) := by
  unfold fM3 m3
  split
  · rfl
  · rename_i h
    push Not at h
    have h1 : I ≠ 0 := by intro h0; rw [h0] at h; norm_num at h
    have h2 : J ≠ 0 := by intro h0; rw [h0] at h; norm_num at h
    have h3 : I - 1 ≠ 0 := by intro h0; linarith [h.2]
    have h4 : J - 1 ≠ 0 := by intro h0; linarith [h.1]
    have h5 : 2 * J - 1 ≠ 0 := by intro h0; linarith [h.1]
    simp only [pyDiv]
    rw [if_neg]
    simp [h1, h2, h3, h4, h5]

theorem hfShift_ok (A B C I J F : ℚ) :
    hfShift A B C I J F = .ok (A * iDotJ I J F + B * e2 I J F + C * m3 I J F) := by
  simp [hfShift, fE2_ok, fM3_ok, bind, Except.bind]

theorem sum_map_lin {α} (l : List α) (f g : α → ℚ) (c : ℚ) :
    (l.map (fun x => c * f x + g x)).sum = c * (l.map f).sum + (l.map g).sum := by
  induction l with
  | nil => simp
  | cons a t ih => simp only [List.map_cons, List.sum_cons, ih]; ring

/-- Weighted sums over the multiplet telescope. -/
theorem sum_hfFs (f G : ℚ → ℚ) (hG : ∀ x, f x = G x - G (x - 1)) {I J : ℚ} (hI : IsSpin I) (hJ : IsSpin J) :
    ((hfFs I J).map f).sum = G (J + I) - G (|J - I| - 1) := by
  obtain ⟨n, hn, _⟩ := spin_count hI hJ
  rw [hfFs, arange_nat _ _ n hn, sum_telescope f G hG]
  have : |J - I| + (n : ℚ) - 1 = J + I := by linarith
  rw [this]

/-- Antiderivatives that depend on `(F+1)^2` only do not see the sign of `J - I`. -/
theorem sum_hfFs_sq (f : ℚ → ℚ) (H : ℚ → ℚ) (hG : ∀ x, f x = H ((x + 1) ^ 2) - H (x ^ 2)) {I J : ℚ}
    (hI : IsSpin I) (hJ : IsSpin J) :
    ((hfFs I J).map f).sum = H ((J + I + 1) ^ 2) - H ((J - I) ^ 2) := by
  rw [sum_hfFs f (fun x => H ((x + 1) ^ 2)) (by intro x; rw [hG]; congr 3; ring) hI hJ]
  congr 2
  rw [show |J - I| - 1 + 1 = |J - I| by ring, sq_abs]

end AtomTk
