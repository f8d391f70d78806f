import Verif.Proofs.SixSum
import Mathlib.Tactic.LinearCombination

/-! # Three-term recurrence of Racah's sum in the last argument -/

namespace AtomTk.Racah

/-- Coefficient of the next value. -/
def recA (a b d e j : ℚ) : ℚ := j*(j+1+a-e)*(j+1-a+e)*(j+1+d-b)*(j+1-d+b)
/-- Coefficient of the previous value. -/
def recC (a b d e j : ℚ) : ℚ := (j+1)*(a+e+1-j)*(a+e+1+j)*(d+b+1-j)*(d+b+1+j)
/-- Coefficient of the value itself. -/
def recB (a b c d e j : ℚ) : ℚ := (2*j+1)*(j*(j+1)*(-(j*(j+1))+a*(a+1)+e*(e+1))+d*(d+1)*(j*(j+1)+a*(a+1)-e*(e+1))+b*(b+1)*(j*(j+1)-a*(a+1)+e*(e+1))-2*(j*(j+1))*(c*(c+1)))
/-- Quadratic coefficient of the certificate. -/
def recG2 (a b c d e j : ℚ) : ℚ :=
  -1 + j^2 -e - e*j - d - d*j - d*e +2*c*j +2*c*j^2 -b -b*j -b*e -2*b*e*j -a -a*j -a*d -2*a*d*j -a*b
/-- See `recH`. -/
def recE2 (al be pi ta : ℚ) : ℚ := (ta-1)*(pi+1)+(al+1)*(be+1)
/-- See `recH`. -/
def recE0 (al be pi ta : ℚ) : ℚ := (ta-1)*(pi+1)*al*be-(al+1)*(be+1)*ta*pi
/-- Linear coefficient of the certificate, in terms of differences of the arguments. -/
def recH (de al be pi ta : ℚ) : ℚ := recE0 al be pi ta - recE2 al be pi ta * (de + 1)
/-- The certificate. -/
def recG (a b c d e j k : ℚ) : ℚ :=
  -((j+1)*(a+e+1-j)*(b+d+1+j))*(b+c-a+1)*(c+d-e+1) +
  (k-(a+e+j))*(-(j+1)*recH (a+e-d-b) (b+c-a) (c+d-e) (b+d-j) (a+e+j+2)) +
  (k-(a+e+j))*(k-(d+b+j))*recG2 a b c d e j

/-- The cofactor in `rec_poly`. -/
def recM (g2 j de al be pi ta x : ℚ) : ℚ :=
  (j+1)*(recE2 al be pi ta*((ta-de-1)*(pi+de+1))-recH de al be pi ta*((pi+de+1)-(ta-de-1)-(x+de+1)))+g2*((x+ta)*(pi-x))

theorem rec_i1 (g2 j de al be pi ta x : ℚ) :
    (j+1)*(pi+de+1)*(ta-de-1)*(ta-1)*(pi+1)*((al-x)*(be-x)) +
      (-((j+1)*(pi+de+1)*(ta-de-1))*(al+1)*(be+1) + (x+1)*(-(j+1)*recH de al be pi ta) + (x+1)*(x+de+1)*g2)*((x+ta)*(pi-x)) =
    (x+1)*(x+de+1)*recM g2 j de al be pi ta x := by
  unfold recM recH recE2 recE0
  ring

theorem rec_ib (de al be pi j si : ℚ) :
    recB ((de+pi+2*j-al+si)/2) ((pi+2*j+si-be)/2) ((al+be+de)/2) ((pi+be-si)/2) ((de+pi+al-si)/2) j =
    (j+1)*(pi+de+1)*((2*j+de+pi+2)-de-1)*(si*(al+be-si-2*j)) -
      recM (recG2 ((de+pi+2*j-al+si)/2) ((pi+2*j+si-be)/2) ((al+be+de)/2) ((pi+be-si)/2) ((de+pi+al-si)/2) j) j de al be pi (2*j+de+pi+2) 0 := by
  unfold recB recM recH recE2 recE0 recG2
  ring

theorem rec_i3 (x de al be pi j si : ℚ) :
    recA ((de+pi+2*j-al+si)/2) ((pi+2*j+si-be)/2) ((pi+be-si)/2) ((de+pi+al-si)/2) j*(x+de) +
    ((j+1)*recH de al be pi (2*j+de+pi+2) +
      recG2 ((de+pi+2*j-al+si)/2) ((pi+2*j+si-be)/2) ((al+be+de)/2) ((pi+be-si)/2) ((de+pi+al-si)/2) j*(pi-(2*j+de+pi+2)-x))*((al+1-x)*(be+1-x)) +
    (j+1)*(pi+de+1)*((2*j+de+pi+2)-de-1)*(si*(al+be-si-2*j)*(x-(al+be+2))+(al+1)*(be+1)*(si+(al+be-si-2*j)-x)) +
    (-(j+1)*recH de al be pi (2*j+de+pi+2) +
      (x+de)*recG2 ((de+pi+2*j-al+si)/2) ((pi+2*j+si-be)/2) ((al+be+de)/2) ((pi+be-si)/2) ((de+pi+al-si)/2) j)*((x-si)*(x-(al+be-si-2*j))) = 0 := by
  unfold recA recH recE2 recE0 recG2
  ring

theorem rec_i2 {A B ka h g2 j de al be pi ta si om x : ℚ} (hB : B = ka*(si*om) - recM g2 j de al be pi ta 0)
    (h3 : A*(x+de) + ((j+1)*recH de al be pi ta + g2*(pi-ta-x))*((al+1-x)*(be+1-x)) +
      ka*(si*om*(x-(al+be+2))+(al+1)*(be+1)*(si+om-x)) + (h + (x+de)*g2)*((x-si)*(x-om)) = 0) :
    A*(x*(x+de)) + B*((al+1-x)*(be+1-x)) + (-ka*(al+1)*(be+1) + x*h + x*(x+de)*g2)*((x-si)*(x-om)) +
      ((al+1-x)*(be+1-x))*recM g2 j de al be pi ta x = 0 := by
  have hM : recM g2 j de al be pi ta x = recM g2 j de al be pi ta 0 + x*((j+1)*recH de al be pi ta + g2*(pi-ta-x)) := by
    unfold recM; ring
  rw [hM, hB]
  linear_combination x*h3

theorem rec_comb {A B C G0 G1 M x y q r s v kp pk : ℚ} (h1 : C*((q-x)*(r-x)) + G1*(kp*pk) = (x+1)*(y+1)*M)
    (h2 : A*(x*y) + B*((q+1-x)*(r+1-x)) + G0*((x-s)*(x-v)) + ((q+1-x)*(r+1-x))*M = 0) :
    A*(x*(x+1)*y*(y+1)) + B*((x+1)*(y+1)*(q+1-x)*(r+1-x)) + C*((q-x)*(q+1-x)*(r-x)*(r+1-x)) =
      -G1*(kp*pk*(q+1-x)*(r+1-x)) - G0*((x-s)*(x-v)*(x+1)*(y+1)) := by
  linear_combination (q+1-x)*(r+1-x)*h1 + (x+1)*(y+1)*h2

theorem rec_poly (a b c d e j k : ℚ) :
    recA a b d e j*((k-(a+e+j))*(k-(a+e+j)+1)*(k-(d+b+j))*(k-(d+b+j)+1)) +
    recB a b c d e j*((k-(a+e+j)+1)*(k-(d+b+j)+1)*((b+c+e+j)+1-k)*((a+c+d+j)+1-k)) +
    recC a b d e j*(((b+c+e+j)-k)*((b+c+e+j)+1-k)*((a+c+d+j)-k)*((a+c+d+j)+1-k))
     = -(recG a b c d e j (k+1))*((k+2)*((a+b+d+e)-k)*((b+c+e+j)+1-k)*((a+c+d+j)+1-k)) -
       recG a b c d e j k*((k-(a+b+c))*(k-(d+e+c))*(k-(a+e+j)+1)*(k-(d+b+j)+1)) := by
  have ea : ((a+e-d-b)+(b+d-j)+2*j-(b+c-a)+(b+c-e-j))/2 = a := by ring
  have eb : ((b+d-j)+2*j+(b+c-e-j)-(c+d-e))/2 = b := by ring
  have ec : ((b+c-a)+(c+d-e)+(a+e-d-b))/2 = c := by ring
  have ed : ((b+d-j)+(c+d-e)-(b+c-e-j))/2 = d := by ring
  have ee : ((a+e-d-b)+(b+d-j)+(b+c-a)-(b+c-e-j))/2 = e := by ring
  have et : 2*j+(a+e-d-b)+(b+d-j)+2 = a+e+j+2 := by ring
  have i3 := rec_i3 (k-(a+e+j)) (a+e-d-b) (b+c-a) (c+d-e) (b+d-j) j (b+c-e-j)
  have ib := rec_ib (a+e-d-b) (b+c-a) (c+d-e) (b+d-j) j (b+c-e-j)
  rw [ea, eb, ed, ee, ec, et] at i3 ib
  have i2 := rec_i2 ib i3
  have i1 := rec_i1 (recG2 a b c d e j) j (a+e-d-b) (b+c-a) (c+d-e) (b+d-j) (a+e+j+2) (k-(a+e+j))
  have hC : (j+1)*((b+d-j)+(a+e-d-b)+1)*((a+e+j+2)-(a+e-d-b)-1)*((a+e+j+2)-1)*((b+d-j)+1) = recC a b d e j := by
    unfold recC; ring
  rw [hC] at i1
  have := rec_comb (y := (k-(a+e+j))+(a+e-d-b)) i1 i2
  have hG1 : recG a b c d e j (k+1) = -((j+1)*((b+d-j)+(a+e-d-b)+1)*((a+e+j+2)-(a+e-d-b)-1))*((b+c-a)+1)*((c+d-e)+1) +
      ((k-(a+e+j))+1)*(-(j+1)*recH (a+e-d-b) (b+c-a) (c+d-e) (b+d-j) (a+e+j+2)) + ((k-(a+e+j))+1)*((k-(a+e+j))+(a+e-d-b)+1)*recG2 a b c d e j := by
    unfold recG; ring
  have hG0 : recG a b c d e j k = -((j+1)*((b+d-j)+(a+e-d-b)+1)*((a+e+j+2)-(a+e-d-b)-1))*((b+c-a)+1)*((c+d-e)+1) +
      (k-(a+e+j))*(-(j+1)*recH (a+e-d-b) (b+c-a) (c+d-e) (b+d-j) (a+e+j+2)) + (k-(a+e+j))*((k-(a+e+j))+(a+e-d-b))*recG2 a b c d e j := by
    unfold recG; ring
  rw [← hG1, ← hG0] at this
  generalize recG a b c d e j (k+1) = G1 at *
  generalize recG a b c d e j k = G0 at *
  generalize recA a b d e j = A at *
  generalize recB a b c d e j = B at *
  generalize recC a b d e j = C at *
  rw [show k-(a+e+j)+(a+e-d-b) = k-(d+b+j) by ring, show (b+c-a)-(k-(a+e+j)) = (b+c+e+j)-k by ring,
    show (b+c-a)+1-(k-(a+e+j)) = (b+c+e+j)+1-k by ring, show (c+d-e)-(k-(a+e+j)) = (a+c+d+j)-k by ring,
    show (c+d-e)+1-(k-(a+e+j)) = (a+c+d+j)+1-k by ring, show (k-(a+e+j))+(a+e+j+2) = k+2 by ring,
    show (b+d-j)-(k-(a+e+j)) = (a+b+d+e)-k by ring, show (k-(a+e+j))-(b+c-e-j) = k-(a+b+c) by ring,
    show (k-(a+e+j))-((b+c-a)+(c+d-e)-(b+c-e-j)-2*j) = k-(d+e+c) by ring] at this
  exact this

theorem rfac_pred (n : ℤ) : rfac (n - 1) = n * rfac n := by
  rcases lt_trichotomy n 0 with h | h | h
  · rw [rfac_neg h, rfac_neg (by omega)]; ring
  · subst h; rw [rfac_neg (by omega)]; norm_num
  · obtain ⟨m, rfl⟩ : ∃ m : ℕ, n = (m : ℤ) + 1 := ⟨(n - 1).toNat, by omega⟩
    rw [show (m : ℤ) + 1 - 1 = (m : ℤ) by ring, show (m : ℤ) + 1 = ((m + 1 : ℕ) : ℤ) by push_cast; ring, rfac_nat, rfac_nat, Nat.factorial_succ]
    have := Nat.factorial_pos m
    have h1 : (m.factorial : ℚ) ≠ 0 := by positivity
    have h2 : ((m : ℚ) + 1) ≠ 0 := by positivity
    push_cast
    field_simp

theorem sgn_succ (k : ℤ) : sgn (k + 1) = -sgn k := by
  unfold sgn
  by_cases h : k % 2 = 0
  · rw [if_neg (by omega), if_pos h]
  · rw [if_pos (by omega), if_neg h]; norm_num

/-- The quantity whose differences are the terms of the recurrence. -/
def recT (a b c d e j : ℚ) (s t u v p q r k : ℤ) : ℚ :=
  sgn k * recG a b c d e j k * (fac (k + 1) * rfac (k - 1 - s) * rfac (k - t) * rfac (k - u) * rfac (k - 1 - v) *
    rfac (p - k) * rfac (q + 1 - k) * rfac (r + 1 - k))

theorem rec_term {a b c d e j : ℚ} {s t u v p q r k : ℤ} (hs : (s : ℚ) = a + b + c) (ht : (t : ℚ) = a + e + j) (hu : (u : ℚ) = d + b + j)
    (hv : (v : ℚ) = d + e + c) (hp : (p : ℚ) = a + b + d + e) (hq : (q : ℚ) = b + c + e + j) (hr : (r : ℚ) = a + c + d + j) (hk : 0 ≤ k) :
    recA a b d e j * term6 s (t + 1) (u + 1) v p (q + 1) (r + 1) k + recB a b c d e j * term6 s t u v p q r k +
      recC a b d e j * term6 s (t - 1) (u - 1) v p (q - 1) (r - 1) k =
    recT a b c d e j s t u v p q r (k + 1) - recT a b c d e j s t u v p q r k := by
  unfold term6 recT
  have f0 : fac (k + 1 + 1) = ((k : ℚ) + 2) * fac (k + 1) := by
    rw [fac_succ (by omega)]; push_cast; ring
  have x1 : rfac (k - 1 - s) = ((k : ℚ) - s) * rfac (k - s) := by
    rw [show k - 1 - s = (k - s) - 1 by ring, rfac_pred]; push_cast; ring
  have x4 : rfac (k - 1 - v) = ((k : ℚ) - v) * rfac (k - v) := by
    rw [show k - 1 - v = (k - v) - 1 by ring, rfac_pred]; push_cast; ring
  have x2 : rfac (k - t) = ((k : ℚ) - t + 1) * rfac (k - t + 1) := by
    rw [show k - t = (k - t + 1) - 1 by ring, rfac_pred]; push_cast; ring_nf
  have x2' : rfac (k - (t + 1)) = ((k : ℚ) - t) * ((k : ℚ) - t + 1) * rfac (k - t + 1) := by
    rw [show k - (t + 1) = (k - t) - 1 by ring, rfac_pred, x2]; push_cast; ring
  have x3 : rfac (k - u) = ((k : ℚ) - u + 1) * rfac (k - u + 1) := by
    rw [show k - u = (k - u + 1) - 1 by ring, rfac_pred]; push_cast; ring_nf
  have x3' : rfac (k - (u + 1)) = ((k : ℚ) - u) * ((k : ℚ) - u + 1) * rfac (k - u + 1) := by
    rw [show k - (u + 1) = (k - u) - 1 by ring, rfac_pred, x3]; push_cast; ring
  have x5 : rfac (p - (k + 1)) = ((p : ℚ) - k) * rfac (p - k) := by
    rw [show p - (k + 1) = (p - k) - 1 by ring, rfac_pred]; push_cast; ring
  have x6 : rfac (q - k) = ((q : ℚ) + 1 - k) * rfac (q + 1 - k) := by
    rw [show q - k = (q + 1 - k) - 1 by ring, rfac_pred]; push_cast; ring_nf
  have x6' : rfac (q - 1 - k) = ((q : ℚ) - k) * ((q : ℚ) + 1 - k) * rfac (q + 1 - k) := by
    rw [show q - 1 - k = (q - k) - 1 by ring, rfac_pred, x6]; push_cast; ring
  have x7 : rfac (r - k) = ((r : ℚ) + 1 - k) * rfac (r + 1 - k) := by
    rw [show r - k = (r + 1 - k) - 1 by ring, rfac_pred]; push_cast; ring_nf
  have x7' : rfac (r - 1 - k) = ((r : ℚ) - k) * ((r : ℚ) + 1 - k) * rfac (r + 1 - k) := by
    rw [show r - 1 - k = (r - k) - 1 by ring, rfac_pred, x7]; push_cast; ring
  rw [show k + 1 - 1 - s = k - s by ring, show k + 1 - 1 - v = k - v by ring, show k + 1 - t = k - t + 1 by ring,
    show k + 1 - u = k - u + 1 by ring, show q + 1 - (k + 1) = q - k by ring, show r + 1 - (k + 1) = r - k by ring,
    show k - (t - 1) = k - t + 1 by ring, show k - (u - 1) = k - u + 1 by ring, sgn_succ, f0, x1, x4, x2', x2, x3', x3, x5, x6', x6, x7', x7]
  have key := rec_poly a b c d e j k
  rw [← hs, ← ht, ← hu, ← hv, ← hp, ← hq, ← hr] at key
  push_cast
  generalize recA a b d e j = A at *
  generalize recB a b c d e j = B at *
  generalize recC a b d e j = C at *
  generalize recG a b c d e j (k + 1) = G1 at *
  generalize recG a b c d e j k = G0 at *
  generalize fac (k + 1) = y0
  generalize rfac (k - s) = y1
  generalize rfac (k - t + 1) = y2
  generalize rfac (k - u + 1) = y3
  generalize rfac (k - v) = y4
  generalize rfac (p - k) = y5
  generalize rfac (q + 1 - k) = y6
  generalize rfac (r + 1 - k) = y7
  linear_combination sgn k * (y0 * y1 * y2 * y3 * y4 * y5 * y6 * y7) * key

theorem rec_sum {a b c d e j : ℚ} {s t u v p q r : ℤ} (hs : (s : ℚ) = a + b + c) (ht : (t : ℚ) = a + e + j) (hu : (u : ℚ) = d + b + j)
    (hv : (v : ℚ) = d + e + c) (hp : (p : ℚ) = a + b + d + e) (hq : (q : ℚ) = b + c + e + j) (hr : (r : ℚ) = a + c + d + j) (h0 : 0 ≤ s) :
    recA a b d e j * sum6 s (t + 1) (u + 1) v p (q + 1) (r + 1) + recB a b c d e j * sum6 s t u v p q r +
      recC a b d e j * sum6 s (t - 1) (u - 1) v p (q - 1) (r - 1) = 0 := by
  unfold sum6
  rw [Finset.mul_sum, Finset.mul_sum, Finset.mul_sum, ← Finset.sum_add_distrib, ← Finset.sum_add_distrib]
  rw [Finset.sum_congr rfl (fun (k : ℕ) _ => (rec_term hs ht hu hv hp hq hr (Int.natCast_nonneg k) : _))]
  have := Finset.sum_range_sub (fun k : ℕ => recT a b c d e j s t u v p q r (k : ℤ)) (p.toNat + 1)
  simp only [Nat.cast_add, Nat.cast_one] at this
  rw [this]
  have e1 : recT a b c d e j s t u v p q r ((p.toNat : ℤ) + 1) = 0 := by
    unfold recT
    rw [rfac_neg (n := p - ((p.toNat : ℤ) + 1)) (by omega)]
    ring
  have e2 : recT a b c d e j s t u v p q r ((0 : ℕ) : ℤ) = 0 := by
    unfold recT
    rw [rfac_neg (n := ((0 : ℕ) : ℤ) - 1 - s) (by push_cast; omega)]
    ring
  rw [e1, e2]
  ring

theorem half_cast {x : ℤ} (h : x % 2 = 0) : ((x / 2 : ℤ) : ℚ) = (x : ℚ) / 2 := by
  obtain ⟨y, rfl⟩ : ∃ y, x = 2 * y := ⟨x / 2, by omega⟩
  rw [show 2 * y / 2 = y by omega]; push_cast; ring

/-- The recurrence of the sum of the 6j symbol. -/
theorem core6_rec {a b c d e f : ℤ} (hi : Int6 a b c d e f) (h0 : 0 ≤ a + b + c) :
    recA (a / 2) (b / 2) (d / 2) (e / 2) (f / 2) * core6 a b c d e (f + 2) +
    recB (a / 2) (b / 2) (c / 2) (d / 2) (e / 2) (f / 2) * core6 a b c d e f +
    recC (a / 2) (b / 2) (d / 2) (e / 2) (f / 2) * core6 a b c d e (f - 2) = 0 := by
  obtain ⟨h1, h2, h3, h4⟩ := hi
  have := rec_sum (a := a / 2) (b := b / 2) (c := c / 2) (d := d / 2) (e := e / 2) (j := f / 2)
    (s := (a + b + c) / 2) (t := (a + e + f) / 2) (u := (d + b + f) / 2) (v := (d + e + c) / 2) (p := (a + b + d + e) / 2)
    (q := (b + c + e + f) / 2) (r := (a + c + d + f) / 2)
    (by rw [half_cast h1]; push_cast; ring) (by rw [half_cast h2]; push_cast; ring) (by rw [half_cast h3]; push_cast; ring)
    (by rw [half_cast h4]; push_cast; ring) (by rw [half_cast (by omega)]; push_cast; ring) (by rw [half_cast (by omega)]; push_cast; ring)
    (by rw [half_cast (by omega)]; push_cast; ring) (by omega)
  unfold core6
  rw [show (a + e + (f + 2)) / 2 = (a + e + f) / 2 + 1 by omega, show (d + b + (f + 2)) / 2 = (d + b + f) / 2 + 1 by omega,
    show (b + c + e + (f + 2)) / 2 = (b + c + e + f) / 2 + 1 by omega, show (a + c + d + (f + 2)) / 2 = (a + c + d + f) / 2 + 1 by omega,
    show (a + e + (f - 2)) / 2 = (a + e + f) / 2 - 1 by omega, show (d + b + (f - 2)) / 2 = (d + b + f) / 2 - 1 by omega,
    show (b + c + e + (f - 2)) / 2 = (b + c + e + f) / 2 - 1 by omega, show (a + c + d + (f - 2)) / 2 = (a + c + d + f) / 2 - 1 by omega]
  exact this

end AtomTk.Racah
