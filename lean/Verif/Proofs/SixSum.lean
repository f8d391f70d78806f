import Verif.Proofs.Racah
import Mathlib.Tactic.FieldSimp
import Mathlib.Tactic.Ring

/-! # 6j symbols with a unit argument, and their sum rule -/

namespace AtomTk.Racah
set_option linter.unusedSimpArgs false
set_option linter.unusedTactic false
set_option linter.unusedVariables false
open Nat (factorial)

theorem fac_nat (n : ℕ) : fac (n : ℤ) = (n.factorial : ℚ) := by
  unfold fac
  rw [if_neg (by omega)]
  simp

theorem rfac_nat (n : ℕ) : rfac (n : ℤ) = 1 / (n.factorial : ℚ) := by
  unfold rfac
  rw [if_neg (by omega)]
  simp

theorem delta_eq {a b c : ℤ} (A B C : ℕ) (h1 : a + b - c = 2 * A) (h2 : b + c - a = 2 * B) (h3 : c + a - b = 2 * C) :
    delta a b c = A.factorial * B.factorial * C.factorial / (A + B + C + 1).factorial := by
  unfold delta
  rw [h1, h2, h3]
  rw [show (2 * (A : ℤ)) / 2 = (A : ℤ) by omega, show (2 * (B : ℤ)) / 2 = (B : ℤ) by omega, show (2 * (C : ℤ)) / 2 = (C : ℤ) by omega,
    show (a + b + c) / 2 + 1 = ((A + B + C + 1 : ℕ) : ℤ) by push_cast; omega]
  rw [fac_nat, fac_nat, fac_nat, rfac_nat]
  ring

/-- The term of the sum at `k`, with the seven factorials spelled out. -/
def t6 (k n1 n2 n3 n4 n5 n6 n7 : ℕ) : ℚ :=
  (k + 1).factorial / (n1.factorial * n2.factorial * n3.factorial * n4.factorial * n5.factorial * n6.factorial * n7.factorial)

theorem term6_eq {s t u v p q r : ℤ} (k n1 n2 n3 n4 n5 n6 n7 : ℕ) (h1 : (k : ℤ) - s = n1) (h2 : (k : ℤ) - t = n2) (h3 : (k : ℤ) - u = n3)
    (h4 : (k : ℤ) - v = n4) (h5 : p - k = n5) (h6 : q - k = n6) (h7 : r - k = n7) :
    term6 s t u v p q r k = sgn k * t6 k n1 n2 n3 n4 n5 n6 n7 := by
  unfold term6 t6
  rw [h1, h2, h3, h4, h5, h6, h7, rfac_nat, rfac_nat, rfac_nat, rfac_nat, rfac_nat, rfac_nat, rfac_nat]
  rw [show ((k : ℤ) + 1) = ((k + 1 : ℕ) : ℤ) by push_cast; rfl, fac_nat]
  ring

theorem term6_low {s t u v p q r k : ℤ} (h : k < s ∨ k < t ∨ k < u ∨ k < v) : term6 s t u v p q r k = 0 := by
  unfold term6
  rcases h with h | h | h | h
  · rw [rfac_neg (n := k - s) (by omega)]; ring
  · rw [rfac_neg (n := k - t) (by omega)]; ring
  · rw [rfac_neg (n := k - u) (by omega)]; ring
  · rw [rfac_neg (n := k - v) (by omega)]; ring

theorem sum6_single {s t u v p q r : ℤ} (k n1 n2 n3 n4 n5 n6 n7 : ℕ) (h1 : (k : ℤ) - s = n1) (h2 : (k : ℤ) - t = n2) (h3 : (k : ℤ) - u = n3)
    (h4 : (k : ℤ) - v = n4) (h5 : p - k = n5) (h6 : q - k = n6) (h7 : r - k = n7) (lo : n1 = 0 ∨ n2 = 0 ∨ n3 = 0 ∨ n4 = 0)
    (hi : n5 = 0 ∨ n6 = 0 ∨ n7 = 0) : sum6 s t u v p q r = sgn k * t6 k n1 n2 n3 n4 n5 n6 n7 := by
  unfold sum6
  rw [Finset.sum_eq_single k]
  · exact term6_eq k n1 n2 n3 n4 n5 n6 n7 h1 h2 h3 h4 h5 h6 h7
  · intro j _ hj
    rcases Nat.lt_or_gt_of_ne hj with h | h
    · exact term6_low (by omega)
    · exact term6_out (by omega)
  · intro h
    exfalso
    apply h
    simp only [Finset.mem_range]
    omega

theorem sum6_pair {s t u v p q r : ℤ} (k n1 n2 n3 n4 n5 n6 n7 : ℕ) (h1 : (k : ℤ) - s = n1) (h2 : (k : ℤ) - t = n2) (h3 : (k : ℤ) - u = n3)
    (h4 : (k : ℤ) - v = n4) (h5 : p - k = n5 + 1) (h6 : q - k = n6 + 1) (h7 : r - k = n7 + 1) (lo : n1 = 0 ∨ n2 = 0 ∨ n3 = 0 ∨ n4 = 0)
    (hi : n5 = 0 ∨ n6 = 0 ∨ n7 = 0) : sum6 s t u v p q r =
      sgn k * t6 k n1 n2 n3 n4 (n5 + 1) (n6 + 1) (n7 + 1) + sgn (k + 1) * t6 (k + 1) (n1 + 1) (n2 + 1) (n3 + 1) (n4 + 1) n5 n6 n7 := by
  unfold sum6
  rw [Finset.sum_eq_add k (k + 1) (by omega)]
  · rw [term6_eq k n1 n2 n3 n4 (n5 + 1) (n6 + 1) (n7 + 1) h1 h2 h3 h4 (by push_cast; omega) (by push_cast; omega) (by push_cast; omega)]
    rw [term6_eq (k + 1) (n1 + 1) (n2 + 1) (n3 + 1) (n4 + 1) n5 n6 n7 (by push_cast; omega) (by push_cast; omega) (by push_cast; omega)
      (by push_cast; omega) (by push_cast; omega) (by push_cast; omega) (by push_cast; omega)]
    push_cast
    rfl
  · intro j _ ⟨hj, hj'⟩
    rcases Nat.lt_or_gt_of_ne hj with h | h
    · exact term6_low (by omega)
    · exact term6_out (by omega)
  · intro h
    exfalso
    apply h
    simp only [Finset.mem_range]
    omega
  · intro h
    exfalso
    apply h
    simp only [Finset.mem_range]
    omega

/-- The square of a 6j symbol whose sum has one term. -/
theorem w6_sq_single {a b c d e f : ℤ} (A B C D E G H K L M N O k n1 n2 n3 n4 n5 n6 n7 : ℕ)
    (a1 : a + b - c = 2 * A) (a2 : b + c - a = 2 * B) (a3 : c + a - b = 2 * C)
    (b1 : a + e - f = 2 * D) (b2 : e + f - a = 2 * E) (b3 : f + a - e = 2 * G)
    (c1 : d + b - f = 2 * H) (c2 : b + f - d = 2 * K) (c3 : f + d - b = 2 * L)
    (d1 : d + e - c = 2 * M) (d2 : e + c - d = 2 * N) (d3 : c + d - e = 2 * O)
    (h1 : (k : ℤ) = A + B + C + n1) (h2 : (k : ℤ) = D + E + G + n2) (h3 : (k : ℤ) = H + K + L + n3) (h4 : (k : ℤ) = M + N + O + n4)
    (h5 : a + b + d + e = 2 * (k + n5)) (h6 : b + c + e + f = 2 * (k + n6)) (h7 : a + c + d + f = 2 * (k + n7))
    (lo : n1 = 0 ∨ n2 = 0 ∨ n3 = 0 ∨ n4 = 0) (hi : n5 = 0 ∨ n6 = 0 ∨ n7 = 0) :
    w6 a b c d e f ^ 2 = ((A.factorial * B.factorial * C.factorial / (A + B + C + 1).factorial *
      (D.factorial * E.factorial * G.factorial / (D + E + G + 1).factorial) * (H.factorial * K.factorial * L.factorial / (H + K + L + 1).factorial) *
      (M.factorial * N.factorial * O.factorial / (M + N + O + 1).factorial) * (t6 k n1 n2 n3 n4 n5 n6 n7) ^ 2 : ℚ) : ℝ) := by
  rw [w6_sq]
  have hd : ∀ {m n : ℤ}, m = 2 * n → m / 2 = n := fun h => by rw [h]; exact Int.mul_ediv_cancel_left _ (by norm_num)
  have hm : ∀ {m n : ℤ}, m = 2 * n → m % 2 = 0 := fun h => by rw [h]; exact Int.mul_emod_right _ _
  have e1 : a + b + c = 2 * (A + B + C) := by linarith
  have e2 : a + e + f = 2 * (D + E + G) := by linarith
  have e3 : d + b + f = 2 * (H + K + L) := by linarith
  have e4 : d + e + c = 2 * (M + N + O) := by linarith
  have hi6 : Int6 a b c d e f := ⟨hm e1, hm e2, hm e3, hm e4⟩
  rw [if_pos hi6]
  congr 1
  unfold norm6 core6
  rw [delta_eq A B C a1 a2 a3, delta_eq D E G b1 b2 b3, delta_eq H K L c1 c2 c3, delta_eq M N O d1 d2 d3]
  rw [hd e1, hd e2, hd e3, hd e4, hd h5, hd h6, hd h7]
  rw [sum6_single k n1 n2 n3 n4 n5 n6 n7 (by linarith) (by linarith) (by linarith) (by linarith) (by linarith) (by linarith) (by linarith)
    lo hi]
  rw [mul_pow, show sgn (k : ℤ) ^ 2 = 1 by rw [sq]; exact sgn_sq _, one_mul]

theorem sgn_pair (k : ℤ) (p q : ℚ) : (sgn k * p + sgn (k + 1) * q) ^ 2 = (p - q) ^ 2 := by
  have hs : sgn (k + 1) = -sgn k := by
    unfold sgn
    by_cases h : k % 2 = 0
    · rw [if_neg (by omega), if_pos h]
    · rw [if_pos (by omega), if_neg h]; norm_num
  rw [hs, show (sgn k * p + -sgn k * q) ^ 2 = (sgn k * sgn k) * (p - q) ^ 2 by ring, sgn_sq, one_mul]

/-- The square of a 6j symbol whose sum has two terms. -/
theorem w6_sq_pair {a b c d e f : ℤ} (A B C D E G H K L M N O k n1 n2 n3 n4 n5 n6 n7 : ℕ)
    (a1 : a + b - c = 2 * A) (a2 : b + c - a = 2 * B) (a3 : c + a - b = 2 * C)
    (b1 : a + e - f = 2 * D) (b2 : e + f - a = 2 * E) (b3 : f + a - e = 2 * G)
    (c1 : d + b - f = 2 * H) (c2 : b + f - d = 2 * K) (c3 : f + d - b = 2 * L)
    (d1 : d + e - c = 2 * M) (d2 : e + c - d = 2 * N) (d3 : c + d - e = 2 * O)
    (h1 : (k : ℤ) = A + B + C + n1) (h2 : (k : ℤ) = D + E + G + n2) (h3 : (k : ℤ) = H + K + L + n3) (h4 : (k : ℤ) = M + N + O + n4)
    (h5 : a + b + d + e = 2 * (k + n5 + 1)) (h6 : b + c + e + f = 2 * (k + n6 + 1)) (h7 : a + c + d + f = 2 * (k + n7 + 1))
    (lo : n1 = 0 ∨ n2 = 0 ∨ n3 = 0 ∨ n4 = 0) (hi : n5 = 0 ∨ n6 = 0 ∨ n7 = 0) :
    w6 a b c d e f ^ 2 = ((A.factorial * B.factorial * C.factorial / (A + B + C + 1).factorial *
      (D.factorial * E.factorial * G.factorial / (D + E + G + 1).factorial) * (H.factorial * K.factorial * L.factorial / (H + K + L + 1).factorial) *
      (M.factorial * N.factorial * O.factorial / (M + N + O + 1).factorial) * (t6 k n1 n2 n3 n4 (n5 + 1) (n6 + 1) (n7 + 1) -
        t6 (k + 1) (n1 + 1) (n2 + 1) (n3 + 1) (n4 + 1) n5 n6 n7) ^ 2 : ℚ) : ℝ) := by
  rw [w6_sq]
  have hd : ∀ {m n : ℤ}, m = 2 * n → m / 2 = n := fun h => by rw [h]; exact Int.mul_ediv_cancel_left _ (by norm_num)
  have hm : ∀ {m n : ℤ}, m = 2 * n → m % 2 = 0 := fun h => by rw [h]; exact Int.mul_emod_right _ _
  have e1 : a + b + c = 2 * (A + B + C) := by linarith
  have e2 : a + e + f = 2 * (D + E + G) := by linarith
  have e3 : d + b + f = 2 * (H + K + L) := by linarith
  have e4 : d + e + c = 2 * (M + N + O) := by linarith
  have hi6 : Int6 a b c d e f := ⟨hm e1, hm e2, hm e3, hm e4⟩
  rw [if_pos hi6]
  congr 1
  unfold norm6 core6
  rw [delta_eq A B C a1 a2 a3, delta_eq D E G b1 b2 b3, delta_eq H K L c1 c2 c3, delta_eq M N O d1 d2 d3]
  rw [hd e1, hd e2, hd e3, hd e4, hd h5, hd h6, hd h7]
  rw [sum6_pair k n1 n2 n3 n4 n5 n6 n7 (by linarith) (by linarith) (by linarith) (by linarith) (by linarith) (by linarith) (by linarith)
    lo hi]
  rw [sgn_pair]

/-- Integer bookkeeping. -/
local macro "ic" : tactic => `(tactic| (push_cast; ring))

/-- The triangle coefficient of `(n/2 + α, n/2, 1)`. -/
def dun (n : ℚ) : ℤ → ℚ
  | 1 => 2 / ((n + 1) * (n + 2) * (n + 3))
  | 0 => 1 / (n * (n + 1) * (n + 2))
  | _ => 2 / ((n - 1) * n * (n + 1))

/-- The remaining factor of the square of `{J+α F+β I; F J 1}`, with `x = J+F-I`, `y = F+I-J`, `z = I+J-F`. -/
def xun (x y z : ℚ) (α β : ℤ) : ℚ :=
  if α = 1 then
    if β = 1 then (x + 1) * (x + 2) * (x + y + z + 2) * (x + y + z + 3) / 4
    else if β = 0 then (x + 1) * y * (z + 1) * (x + y + z + 2)
    else y * (y - 1) * (z + 1) * (z + 2) / 4
  else if α = 0 then
    if β = 1 then (x + 1) * z * (y + 1) * (x + y + z + 2)
    else if β = 0 then (y * z - x * (x + y + z + 2)) ^ 2
    else x * y * (z + 1) * (x + y + z + 1)
  else
    if β = 1 then z * (z - 1) * (y + 1) * (y + 2) / 4
    else if β = 0 then x * z * (y + 1) * (x + y + z + 1)
    else x * (x - 1) * (x + y + z) * (x + y + z + 1) / 4

/-- The symbol `{J+α F+β I; F J 1}`. -/
noncomputable def wun (x y z : ℕ) (α β : ℤ) : ℝ := w6 (x + z + 2 * α) (x + y + 2 * β) (y + z) (x + y) (x + z) 2

theorem wun_zero {x y z : ℕ} {α β : ℤ} (h : ¬(Tri (x + z + 2 * α) (x + y + 2 * β) (y + z) ∧ Tri (x + z + 2 * α) (x + z) 2 ∧
    Tri (x + y) (x + y + 2 * β) 2 ∧ Tri (x + y) (x + z) (y + z))) : wun x y z α β = 0 := w6_zero h

theorem wun_pp' (x y z : ℕ) : wun x y z (1) (1) ^ 2 =
    ((dun (x + z) (1) * dun (x + y) (1) * xun x y z (1) (1) : ℚ) : ℝ) := by
  unfold wun
  rw [w6_sq_single (x + 2) y z (x + z) 0 2 (x + y) 2 0 x z y (x + y + z + 2) 0 y z 2 x 0 0
    (by ic) (by ic) (by ic) (by ic) (by ic) (by ic) (by ic) (by ic) (by ic) (by ic) (by ic) (by ic) (by ic) (by ic) (by ic) (by ic) (by ic) (by ic) (by ic) (by simp) (by simp)]
  congr 1
  unfold t6
  rw [show (x + 2) + y + z + 1 = x + y + z + 3 by ring, show (x + z) + 0 + 2 + 1 = x + z + 3 by ring, show (x + y) + 2 + 0 + 1 = x + y + 3 by ring, show x + z + y + 1 = x + y + z + 1 by ring, show (x + y + z + 2) + 1 = x + y + z + 3 by ring]
  simp only [dun, xun, Nat.factorial, reduceCtorEq, if_true, if_false, show ¬((-1 : ℤ) = 1) by decide, show ¬((0 : ℤ) = 1) by decide,
    show ¬((-1 : ℤ) = 0) by decide]
  push_cast
  have h1 := Nat.factorial_ne_zero x
  have h2 := Nat.factorial_ne_zero y
  have h3 := Nat.factorial_ne_zero z
  have h4 := Nat.factorial_ne_zero (x + y)
  have h5 := Nat.factorial_ne_zero (x + z)
  have h6 := Nat.factorial_ne_zero (x + y + z)
  simp only [add_sub_assoc, add_assoc]
  norm_num
  field_simp
  ring

theorem wun_pz' (x y z : ℕ) : wun x (y + 1 : ℕ) z (1) (0) ^ 2 =
    ((dun (x + z) (1) * dun (x + (y + 1 : ℕ)) (0) * xun x (y + 1 : ℕ) z (1) (0) : ℚ) : ℝ) := by
  unfold wun
  rw [w6_sq_single (x + 1) y (z + 1) (x + z) 0 2 (x + y) 1 1 x z (y + 1) (x + y + z + 2) 0 y z 1 x 0 1
    (by ic) (by ic) (by ic) (by ic) (by ic) (by ic) (by ic) (by ic) (by ic) (by ic) (by ic) (by ic) (by ic) (by ic) (by ic) (by ic) (by ic) (by ic) (by ic) (by simp) (by simp)]
  congr 1
  unfold t6
  rw [show (x + 1) + y + (z + 1) + 1 = x + y + z + 3 by ring, show (x + z) + 0 + 2 + 1 = x + z + 3 by ring, show (x + y) + 1 + 1 + 1 = x + y + 3 by ring, show x + z + (y + 1) + 1 = x + y + z + 2 by ring, show (x + y + z + 2) + 1 = x + y + z + 3 by ring]
  simp only [dun, xun, Nat.factorial, reduceCtorEq, if_true, if_false, show ¬((-1 : ℤ) = 1) by decide, show ¬((0 : ℤ) = 1) by decide,
    show ¬((-1 : ℤ) = 0) by decide]
  push_cast
  have h1 := Nat.factorial_ne_zero x
  have h2 := Nat.factorial_ne_zero y
  have h3 := Nat.factorial_ne_zero z
  have h4 := Nat.factorial_ne_zero (x + y)
  have h5 := Nat.factorial_ne_zero (x + z)
  have h6 := Nat.factorial_ne_zero (x + y + z)
  simp only [add_sub_assoc, add_assoc]
  norm_num
  field_simp
  ring

theorem wun_pm' (x y z : ℕ) : wun x (y + 2 : ℕ) z (1) (-1) ^ 2 =
    ((dun (x + z) (1) * dun (x + (y + 2 : ℕ)) (-1) * xun x (y + 2 : ℕ) z (1) (-1) : ℚ) : ℝ) := by
  unfold wun
  rw [w6_sq_single x y (z + 2) (x + z) 0 2 (x + y) 0 2 x z (y + 2) (x + y + z + 2) 0 y z 0 x 0 2
    (by ic) (by ic) (by ic) (by ic) (by ic) (by ic) (by ic) (by ic) (by ic) (by ic) (by ic) (by ic) (by ic) (by ic) (by ic) (by ic) (by ic) (by ic) (by ic) (by simp) (by simp)]
  congr 1
  unfold t6
  rw [show x + y + (z + 2) + 1 = x + y + z + 3 by ring, show (x + z) + 0 + 2 + 1 = x + z + 3 by ring, show (x + y) + 0 + 2 + 1 = x + y + 3 by ring, show x + z + (y + 2) + 1 = x + y + z + 3 by ring, show (x + y + z + 2) + 1 = x + y + z + 3 by ring]
  simp only [dun, xun, Nat.factorial, reduceCtorEq, if_true, if_false, show ¬((-1 : ℤ) = 1) by decide, show ¬((0 : ℤ) = 1) by decide,
    show ¬((-1 : ℤ) = 0) by decide]
  push_cast
  have h1 := Nat.factorial_ne_zero x
  have h2 := Nat.factorial_ne_zero y
  have h3 := Nat.factorial_ne_zero z
  have h4 := Nat.factorial_ne_zero (x + y)
  have h5 := Nat.factorial_ne_zero (x + z)
  have h6 := Nat.factorial_ne_zero (x + y + z)
  simp only [add_sub_assoc, add_assoc]
  norm_num
  field_simp
  ring

theorem wun_zp' (x y z : ℕ) : wun x y (z + 1 : ℕ) (0) (1) ^ 2 =
    ((dun (x + (z + 1 : ℕ)) (0) * dun (x + y) (1) * xun x y (z + 1 : ℕ) (0) (1) : ℚ) : ℝ) := by
  unfold wun
  rw [w6_sq_single (x + 1) (y + 1) z (x + z) 1 1 (x + y) 2 0 x (z + 1) y (x + y + z + 2) 0 y z 1 x 1 0
    (by ic) (by ic) (by ic) (by ic) (by ic) (by ic) (by ic) (by ic) (by ic) (by ic) (by ic) (by ic) (by ic) (by ic) (by ic) (by ic) (by ic) (by ic) (by ic) (by simp) (by simp)]
  congr 1
  unfold t6
  rw [show (x + 1) + (y + 1) + z + 1 = x + y + z + 3 by ring, show (x + z) + 1 + 1 + 1 = x + z + 3 by ring, show (x + y) + 2 + 0 + 1 = x + y + 3 by ring, show x + (z + 1) + y + 1 = x + y + z + 2 by ring, show (x + y + z + 2) + 1 = x + y + z + 3 by ring]
  simp only [dun, xun, Nat.factorial, reduceCtorEq, if_true, if_false, show ¬((-1 : ℤ) = 1) by decide, show ¬((0 : ℤ) = 1) by decide,
    show ¬((-1 : ℤ) = 0) by decide]
  push_cast
  have h1 := Nat.factorial_ne_zero x
  have h2 := Nat.factorial_ne_zero y
  have h3 := Nat.factorial_ne_zero z
  have h4 := Nat.factorial_ne_zero (x + y)
  have h5 := Nat.factorial_ne_zero (x + z)
  have h6 := Nat.factorial_ne_zero (x + y + z)
  simp only [add_sub_assoc, add_assoc]
  norm_num
  field_simp

theorem wun_zm' (x y z : ℕ) : wun (x + 1 : ℕ) (y + 1 : ℕ) z (0) (-1) ^ 2 =
    ((dun ((x + 1 : ℕ) + z) (0) * dun ((x + 1 : ℕ) + (y + 1 : ℕ)) (-1) * xun (x + 1 : ℕ) (y + 1 : ℕ) z (0) (-1) : ℚ) : ℝ) := by
  unfold wun
  rw [w6_sq_single x y (z + 1) (x + z) 1 1 (x + y) 0 2 (x + 1) z (y + 1) (x + y + z + 2) 1 y z 0 x 0 1
    (by ic) (by ic) (by ic) (by ic) (by ic) (by ic) (by ic) (by ic) (by ic) (by ic) (by ic) (by ic) (by ic) (by ic) (by ic) (by ic) (by ic) (by ic) (by ic) (by simp) (by simp)]
  congr 1
  unfold t6
  rw [show x + y + (z + 1) + 1 = x + y + z + 2 by ring, show (x + z) + 1 + 1 + 1 = x + z + 3 by ring, show (x + y) + 0 + 2 + 1 = x + y + 3 by ring, show (x + 1) + z + (y + 1) + 1 = x + y + z + 3 by ring, show (x + y + z + 2) + 1 = x + y + z + 3 by ring]
  simp only [dun, xun, Nat.factorial, reduceCtorEq, if_true, if_false, show ¬((-1 : ℤ) = 1) by decide, show ¬((0 : ℤ) = 1) by decide,
    show ¬((-1 : ℤ) = 0) by decide]
  push_cast
  have h1 := Nat.factorial_ne_zero x
  have h2 := Nat.factorial_ne_zero y
  have h3 := Nat.factorial_ne_zero z
  have h4 := Nat.factorial_ne_zero (x + y)
  have h5 := Nat.factorial_ne_zero (x + z)
  have h6 := Nat.factorial_ne_zero (x + y + z)
  simp only [add_sub_assoc, add_assoc]
  norm_num
  field_simp
  ring

theorem wun_mp' (x y z : ℕ) : wun x y (z + 2 : ℕ) (-1) (1) ^ 2 =
    ((dun (x + (z + 2 : ℕ)) (-1) * dun (x + y) (1) * xun x y (z + 2 : ℕ) (-1) (1) : ℚ) : ℝ) := by
  unfold wun
  rw [w6_sq_single x (y + 2) z (x + z) 2 0 (x + y) 2 0 x (z + 2) y (x + y + z + 2) 0 y z 0 x 2 0
    (by ic) (by ic) (by ic) (by ic) (by ic) (by ic) (by ic) (by ic) (by ic) (by ic) (by ic) (by ic) (by ic) (by ic) (by ic) (by ic) (by ic) (by ic) (by ic) (by simp) (by simp)]
  congr 1
  unfold t6
  rw [show x + (y + 2) + z + 1 = x + y + z + 3 by ring, show (x + z) + 2 + 0 + 1 = x + z + 3 by ring, show (x + y) + 2 + 0 + 1 = x + y + 3 by ring, show x + (z + 2) + y + 1 = x + y + z + 3 by ring, show (x + y + z + 2) + 1 = x + y + z + 3 by ring]
  simp only [dun, xun, Nat.factorial, reduceCtorEq, if_true, if_false, show ¬((-1 : ℤ) = 1) by decide, show ¬((0 : ℤ) = 1) by decide,
    show ¬((-1 : ℤ) = 0) by decide]
  push_cast
  have h1 := Nat.factorial_ne_zero x
  have h2 := Nat.factorial_ne_zero y
  have h3 := Nat.factorial_ne_zero z
  have h4 := Nat.factorial_ne_zero (x + y)
  have h5 := Nat.factorial_ne_zero (x + z)
  have h6 := Nat.factorial_ne_zero (x + y + z)
  simp only [add_sub_assoc, add_assoc]
  norm_num
  field_simp
  ring

theorem wun_mz' (x y z : ℕ) : wun (x + 1 : ℕ) y (z + 1 : ℕ) (-1) (0) ^ 2 =
    ((dun ((x + 1 : ℕ) + (z + 1 : ℕ)) (-1) * dun ((x + 1 : ℕ) + y) (0) * xun (x + 1 : ℕ) y (z + 1 : ℕ) (-1) (0) : ℚ) : ℝ) := by
  unfold wun
  rw [w6_sq_single x (y + 1) z (x + z) 2 0 (x + y) 1 1 (x + 1) (z + 1) y (x + y + z + 2) 1 y z 0 x 1 0
    (by ic) (by ic) (by ic) (by ic) (by ic) (by ic) (by ic) (by ic) (by ic) (by ic) (by ic) (by ic) (by ic) (by ic) (by ic) (by ic) (by ic) (by ic) (by ic) (by simp) (by simp)]
  congr 1
  unfold t6
  rw [show x + (y + 1) + z + 1 = x + y + z + 2 by ring, show (x + z) + 2 + 0 + 1 = x + z + 3 by ring, show (x + y) + 1 + 1 + 1 = x + y + 3 by ring, show (x + 1) + (z + 1) + y + 1 = x + y + z + 3 by ring, show (x + y + z + 2) + 1 = x + y + z + 3 by ring]
  simp only [dun, xun, Nat.factorial, reduceCtorEq, if_true, if_false, show ¬((-1 : ℤ) = 1) by decide, show ¬((0 : ℤ) = 1) by decide,
    show ¬((-1 : ℤ) = 0) by decide]
  push_cast
  have h1 := Nat.factorial_ne_zero x
  have h2 := Nat.factorial_ne_zero y
  have h3 := Nat.factorial_ne_zero z
  have h4 := Nat.factorial_ne_zero (x + y)
  have h5 := Nat.factorial_ne_zero (x + z)
  have h6 := Nat.factorial_ne_zero (x + y + z)
  simp only [add_sub_assoc, add_assoc]
  norm_num
  field_simp
  ring

theorem wun_mm' (x y z : ℕ) : wun (x + 2 : ℕ) y z (-1) (-1) ^ 2 =
    ((dun ((x + 2 : ℕ) + z) (-1) * dun ((x + 2 : ℕ) + y) (-1) * xun (x + 2 : ℕ) y z (-1) (-1) : ℚ) : ℝ) := by
  unfold wun
  rw [w6_sq_single x y z (x + z) 2 0 (x + y) 0 2 (x + 2) z y (x + y + z + 2) 2 y z 0 x 0 0
    (by ic) (by ic) (by ic) (by ic) (by ic) (by ic) (by ic) (by ic) (by ic) (by ic) (by ic) (by ic) (by ic) (by ic) (by ic) (by ic) (by ic) (by ic) (by ic) (by simp) (by simp)]
  congr 1
  unfold t6
  rw [show x + y + z + 1 = x + y + z + 1 by ring, show (x + z) + 2 + 0 + 1 = x + z + 3 by ring, show (x + y) + 0 + 2 + 1 = x + y + 3 by ring, show (x + 2) + z + y + 1 = x + y + z + 3 by ring, show (x + y + z + 2) + 1 = x + y + z + 3 by ring]
  simp only [dun, xun, Nat.factorial, reduceCtorEq, if_true, if_false, show ¬((-1 : ℤ) = 1) by decide, show ¬((0 : ℤ) = 1) by decide,
    show ¬((-1 : ℤ) = 0) by decide]
  push_cast
  have h1 := Nat.factorial_ne_zero x
  have h2 := Nat.factorial_ne_zero y
  have h3 := Nat.factorial_ne_zero z
  have h4 := Nat.factorial_ne_zero (x + y)
  have h5 := Nat.factorial_ne_zero (x + z)
  have h6 := Nat.factorial_ne_zero (x + y + z)
  rw [show ((x : ℚ) + 2 + z - 1) = x + z + 1 by ring, show ((x : ℚ) + 2 + y - 1) = x + y + 1 by ring, show ((x : ℚ) + 2 - 1) = x + 1 by ring]
  simp only [add_assoc]
  norm_num
  field_simp
  ring

theorem wun_zz1 (x y z : ℕ) : wun (x + 1 : ℕ) (y + 1 : ℕ) (z + 1 : ℕ) 0 0 ^ 2 =
    ((dun ((x + 1 : ℕ) + (z + 1 : ℕ)) 0 * dun ((x + 1 : ℕ) + (y + 1 : ℕ)) 0 * xun (x + 1 : ℕ) (y + 1 : ℕ) (z + 1 : ℕ) 0 0 : ℚ) : ℝ) := by
  unfold wun
  rw [w6_sq_pair (x + 1) (y + 1) (z + 1) (x + z + 1) 1 1 (x + y + 1) 1 1 (x + 1) (z + 1) (y + 1) (x + y + z + 3) 0 y z 0 x 0 0
    (by ic) (by ic) (by ic) (by ic) (by ic) (by ic) (by ic) (by ic) (by ic) (by ic) (by ic) (by ic) (by ic) (by ic) (by ic) (by ic) (by ic) (by ic) (by ic) (by simp) (by simp)]
  congr 1
  unfold t6
  rw [show (x + 1) + (y + 1) + (z + 1) + 1 = x + y + z + 4 by ring, show (x + z + 1) + 1 + 1 + 1 = x + z + 4 by ring, show (x + y + 1) + 1 + 1 + 1 = x + y + 4 by ring, show (x + 1) + (z + 1) + (y + 1) + 1 = x + y + z + 4 by ring, show (x + y + z + 3) + 1 + 1 = x + y + z + 5 by ring, show (x + y + z + 3) + 1 = x + y + z + 4 by ring]
  simp only [dun, xun, Nat.factorial, reduceCtorEq, if_true, if_false, show ¬((-1 : ℤ) = 1) by decide, show ¬((0 : ℤ) = 1) by decide,
    show ¬((-1 : ℤ) = 0) by decide]
  push_cast
  have h1 := Nat.factorial_ne_zero x
  have h2 := Nat.factorial_ne_zero y
  have h3 := Nat.factorial_ne_zero z
  have h4 := Nat.factorial_ne_zero (x + y)
  have h5 := Nat.factorial_ne_zero (x + z)
  have h6 := Nat.factorial_ne_zero (x + y + z)
  simp only [add_assoc]
  norm_num
  field_simp
  ring

theorem wun_zz2 (x y z : ℕ) : wun (0 : ℕ) (y + 1 : ℕ) (z + 1 : ℕ) 0 0 ^ 2 =
    ((dun ((0 : ℕ) + (z + 1 : ℕ)) 0 * dun ((0 : ℕ) + (y + 1 : ℕ)) 0 * xun (0 : ℕ) (y + 1 : ℕ) (z + 1 : ℕ) 0 0 : ℚ) : ℝ) := by
  unfold wun
  rw [w6_sq_single 0 (y + 1) (z + 1) z 1 1 y 1 1 0 (z + 1) (y + 1) (y + z + 2) 0 y z 0 0 1 1
    (by ic) (by ic) (by ic) (by ic) (by ic) (by ic) (by ic) (by ic) (by ic) (by ic) (by ic) (by ic) (by ic) (by ic) (by ic) (by ic) (by ic) (by ic) (by ic) (by simp) (by simp)]
  congr 1
  unfold t6
  rw [show 0 + (y + 1) + (z + 1) + 1 = y + z + 3 by ring, show z + 1 + 1 + 1 = z + 3 by ring, show y + 1 + 1 + 1 = y + 3 by ring, show 0 + (z + 1) + (y + 1) + 1 = y + z + 3 by ring, show (y + z + 2) + 1 = y + z + 3 by ring]
  simp only [dun, xun, Nat.factorial, reduceCtorEq, if_true, if_false, show ¬((-1 : ℤ) = 1) by decide, show ¬((0 : ℤ) = 1) by decide,
    show ¬((-1 : ℤ) = 0) by decide]
  push_cast
  have h1 := Nat.factorial_ne_zero x
  have h2 := Nat.factorial_ne_zero y
  have h3 := Nat.factorial_ne_zero z
  have h4 := Nat.factorial_ne_zero (x + y)
  have h5 := Nat.factorial_ne_zero (x + z)
  have h6 := Nat.factorial_ne_zero (x + y + z)
  have h7 := Nat.factorial_ne_zero (y + z)
  simp only [add_assoc]
  norm_num
  field_simp

theorem wun_zz3 (x y z : ℕ) : wun (x + 1 : ℕ) (0 : ℕ) z 0 0 ^ 2 =
    ((dun ((x + 1 : ℕ) + z) 0 * dun ((x + 1 : ℕ) + (0 : ℕ)) 0 * xun (x + 1 : ℕ) (0 : ℕ) z 0 0 : ℚ) : ℝ) := by
  unfold wun
  rw [w6_sq_single (x + 1) 0 z (x + z) 1 1 x 1 1 (x + 1) z 0 (x + z + 2) 1 0 z 1 x 0 0
    (by ic) (by ic) (by ic) (by ic) (by ic) (by ic) (by ic) (by ic) (by ic) (by ic) (by ic) (by ic) (by ic) (by ic) (by ic) (by ic) (by ic) (by ic) (by ic) (by simp) (by simp)]
  congr 1
  unfold t6
  rw [show (x + 1) + 0 + z + 1 = x + z + 2 by ring, show (x + z) + 1 + 1 + 1 = x + z + 3 by ring, show x + 1 + 1 + 1 = x + 3 by ring, show (x + z + 2) + 1 = x + z + 3 by ring]
  simp only [dun, xun, Nat.factorial, reduceCtorEq, if_true, if_false, show ¬((-1 : ℤ) = 1) by decide, show ¬((0 : ℤ) = 1) by decide,
    show ¬((-1 : ℤ) = 0) by decide]
  push_cast
  have h1 := Nat.factorial_ne_zero x
  have h2 := Nat.factorial_ne_zero y
  have h3 := Nat.factorial_ne_zero z
  have h4 := Nat.factorial_ne_zero (x + y)
  have h5 := Nat.factorial_ne_zero (x + z)
  have h6 := Nat.factorial_ne_zero (x + y + z)
  simp only [add_assoc]
  norm_num
  field_simp
  ring

theorem wun_zz4 (x y z : ℕ) : wun (x + 1 : ℕ) y (0 : ℕ) 0 0 ^ 2 =
    ((dun ((x + 1 : ℕ) + (0 : ℕ)) 0 * dun ((x + 1 : ℕ) + y) 0 * xun (x + 1 : ℕ) y (0 : ℕ) 0 0 : ℚ) : ℝ) := by
  unfold wun
  rw [w6_sq_single (x + 1) y 0 x 1 1 (x + y) 1 1 (x + 1) 0 y (x + y + 2) 1 y 0 1 x 0 0
    (by ic) (by ic) (by ic) (by ic) (by ic) (by ic) (by ic) (by ic) (by ic) (by ic) (by ic) (by ic) (by ic) (by ic) (by ic) (by ic) (by ic) (by ic) (by ic) (by simp) (by simp)]
  congr 1
  unfold t6
  rw [show (x + 1) + y + 0 + 1 = x + y + 2 by ring, show x + 1 + 1 + 1 = x + 3 by ring, show (x + y) + 1 + 1 + 1 = x + y + 3 by ring, show (x + y + 2) + 1 = x + y + 3 by ring]
  simp only [dun, xun, Nat.factorial, reduceCtorEq, if_true, if_false, show ¬((-1 : ℤ) = 1) by decide, show ¬((0 : ℤ) = 1) by decide,
    show ¬((-1 : ℤ) = 0) by decide]
  push_cast
  have h1 := Nat.factorial_ne_zero x
  have h2 := Nat.factorial_ne_zero y
  have h3 := Nat.factorial_ne_zero z
  have h4 := Nat.factorial_ne_zero (x + y)
  have h5 := Nat.factorial_ne_zero (x + z)
  have h6 := Nat.factorial_ne_zero (x + y + z)
  simp only [add_assoc]
  norm_num
  field_simp
  ring

/-- The squared symbols with a unit argument, in closed form. -/
def wsq (x y z : ℕ) (α β : ℤ) : ℚ := dun (x + z) α * dun (x + y) β * xun x y z α β

theorem wun_out {x y z : ℕ} {α β : ℤ} (h : wsq x y z α β = 0) (ht : ¬(Tri (x + z + 2 * α) (x + y + 2 * β) (y + z) ∧
    Tri (x + z + 2 * α) (x + z) 2 ∧ Tri (x + y) (x + y + 2 * β) 2 ∧ Tri (x + y) (x + z) (y + z))) :
    wun x y z α β ^ 2 = ((wsq x y z α β : ℚ) : ℝ) := by
  rw [wun_zero ht, h]
  norm_num

/-- Discharge a configuration outside the triangles. -/
local macro "outside" : tactic => `(tactic| (
  refine wun_out (by unfold wsq xun dun; norm_num) ?_
  rintro ⟨⟨_, h1, h2⟩, ⟨_, h3, h4⟩, ⟨_, h5, h6⟩, ⟨_, h7, h8⟩⟩
  rw [abs_le] at h1 h3 h5 h7
  push_cast at h1 h2 h3 h4 h5 h6 h7 h8 <;>
  omega))

theorem wun_sq (x y z : ℕ) {α β : ℤ} (ha : α = 1 ∨ α = 0 ∨ α = -1) (hb : β = 1 ∨ β = 0 ∨ β = -1) :
    wun x y z α β ^ 2 = ((wsq x y z α β : ℚ) : ℝ) := by
  rcases ha with rfl | rfl | rfl <;> rcases hb with rfl | rfl | rfl
  · exact wun_pp' x y z
  · rcases y with _ | y
    · outside
    · exact wun_pz' x y z
  · rcases y with _ | _ | y
    · outside
    · outside
    · exact wun_pm' x y z
  · rcases z with _ | z
    · outside
    · exact wun_zp' x y z
  · rcases x with _ | x
    · rcases y with _ | y
      · outside
      · rcases z with _ | z
        · outside
        · exact wun_zz2 0 y z
    · rcases y with _ | y
      · exact wun_zz3 x 0 z
      · rcases z with _ | z
        · exact wun_zz4 x (y + 1) 0
        · exact wun_zz1 x y z
  · rcases x with _ | x
    · outside
    · rcases y with _ | y
      · outside
      · exact wun_zm' x y z
  · rcases z with _ | _ | z
    · outside
    · outside
    · exact wun_mp' x y z
  · rcases x with _ | x
    · outside
    · rcases z with _ | z
      · outside
      · exact wun_mz' x y z
  · rcases x with _ | _ | x
    · outside
    · outside
    · exact wun_mm' x y z

/-- The sum rule over the upper hyperfine momentum, as rational functions. -/
theorem wsq_sum (x y z : ℕ) {α : ℤ} (h : α = 1 ∨ (α = 0 ∧ 1 ≤ x + z) ∨ (α = -1 ∧ 2 ≤ x + z)) :
    (x + y + 3) * wsq x y z α 1 + (x + y + 1) * wsq x y z α 0 + (x + y - 1) * wsq x y z α (-1) = 1 / (x + z + 1) := by
  unfold wsq xun dun
  simp only [if_true, if_false, show ¬((-1 : ℤ) = 1) by decide, show ¬((0 : ℤ) = 1) by decide, show ¬((-1 : ℤ) = 0) by decide]
  rcases h with rfl | ⟨rfl, h⟩ | ⟨rfl, h⟩
  · rcases y with _ | _ | y
    · push_cast
      norm_num
      field_simp
      ring
    · push_cast
      norm_num
      field_simp
      ring
    · push_cast
      simp only [if_true, show (x : ℚ) + y + 2 - 1 = x + y + 1 by ring, show (x : ℚ) + (y + 1 + 1) = x + y + 2 by ring,
        show (y : ℚ) + 1 + 1 - 1 = y + 1 by ring]
      field_simp
      ring
  · simp only [if_true, if_false, show ¬((0 : ℤ) = 1) by decide]
    rcases x with _ | x
    · rcases z with _ | z
      · omega
      · rcases y with _ | y
        · push_cast
          norm_num
          field_simp
        · push_cast
          norm_num
          field_simp
          ring
    · rcases y with _ | y
      · push_cast
        norm_num
        field_simp
        ring
      · push_cast
        simp only [show (x : ℚ) + y + 2 - 1 = x + y + 1 by ring, show (x : ℚ) + 1 + (y + 1) = x + y + 2 by ring]
        field_simp
        ring
  · simp only [if_true, if_false, show ¬((-1 : ℤ) = 1) by decide, show ¬((-1 : ℤ) = 0) by decide]
    rcases x with _ | _ | x
    · rcases z with _ | _ | z
      · omega
      · omega
      · push_cast
        simp only [show (z : ℚ) + 1 + 1 - 1 = z + 1 by ring, zero_add, zero_mul, mul_zero, add_zero, zero_div]
        field_simp
        ring
    · rcases z with _ | z
      · omega
      · push_cast
        norm_num
        field_simp
        ring
    · push_cast
      simp only [show (x : ℚ) + z + 2 - 1 = x + z + 1 by ring, show (x : ℚ) + 1 + 1 + z = x + z + 2 by ring,
        show (x : ℚ) + y + 2 - 1 = x + y + 1 by ring, show (x : ℚ) + 1 + 1 + y = x + y + 2 by ring,
        show (x : ℚ) + 1 + 1 - 1 = x + 1 by ring]
      field_simp
      ring

end AtomTk.Racah
