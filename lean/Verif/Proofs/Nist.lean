import Verif.Model.Nist
import Verif.Proofs.Regex
import Verif.Proofs.Parse

/-! # Matching the leading percentages -/

namespace AtomTk.Nist
open AtomTk Regex

/-! ## Backtracking -/

theorem head_after {α β} (l1 : List α) (a : α) (l2 : List α) (f : α → List β) (r : β) (h1 : l1.flatMap f = []) (h2 : (f a).head? = some r) :
    ((l1 ++ a :: l2).flatMap f).head? = some r := by
  rw [List.flatMap_append, h1, List.nil_append, List.flatMap_cons, List.head?_append, h2]
  rfl

theorem run_rep (l : Bool) (p : Char → Bool) (b : Re) (s : Str) (c : Caps) :
    run (.seq (.rep l p) b) s c = (repRun l p s).flatMap (fun t => run b t c) := by
  simp only [run, List.flatMap_map]

theorem run_plus (l : Bool) (p : Char → Bool) (b : Re) (x : Char) (xs : Str) (c : Caps) (h : p x = true) :
    run (.seq (.seq (.cls p) (.rep l p)) b) (x :: xs) c = (repRun l p xs).flatMap (fun t => run b t c) := by
  simp only [run, h, if_true, List.flatMap_cons, List.flatMap_nil, List.append_nil, List.flatMap_map]

theorem run_plus_nil (l : Bool) (p : Char → Bool) (b : Re) (s : Str) (c : Caps) (h : ∀ x xs, s = x :: xs → p x = false) :
    run (.seq (.seq (.cls p) (.rep l p)) b) s c = [] := by
  cases s with
  | nil => simp [run]
  | cons x xs => simp [run, h x xs rfl]

theorem run_grp_plus (n : Nat) (l : Bool) (p : Char → Bool) (b : Re) (x : Char) (xs : Str) (c : Caps) (h : p x = true) :
    run (.seq (.grp n (.seq (.cls p) (.rep l p))) b) (x :: xs) c =
      (repRun l p xs).flatMap (fun t => run b t (Regex.upd n ((x :: xs).take ((x :: xs).length - t.length)) c)) := by
  simp only [run, h, if_true, List.flatMap_cons, List.flatMap_nil, List.append_nil, List.flatMap_map, List.map_map]
  rfl

/-- Greedy repetition over `u ++ q :: v` followed by something that needs the last `q`. -/
theorem greedy_last {β} (p : Char → Bool) (u : Str) (q : Char) (v : Str) (f : Str → List β) (r : β) (hu : ∀ x ∈ u, p x = true)
    (hq : p q = true) (hv : q ∉ v) (hf : ∀ t, (∀ xs, t ≠ q :: xs) → f t = []) (h : (f (q :: v)).head? = some r) :
    ((repRun false p (u ++ q :: v)).flatMap f).head? = some r := by
  have key : ∃ l1 l2, repRun false p (u ++ q :: v) = l1 ++ (q :: v) :: l2 ∧ ∀ t ∈ l1, ∃ w, v = w ++ t := by
    induction u with
    | nil =>
      refine ⟨repRun false p v, [], by simp [repRun, hq], fun t ht => ?_⟩
      obtain ⟨w, h1, -⟩ := repRun_sound _ _ _ _ ht
      exact ⟨w, h1⟩
    | cons x u ih =>
      obtain ⟨l1, l2, h1, h2⟩ := ih (fun y hy => hu y (by simp [hy]))
      refine ⟨l1, l2 ++ [x :: (u ++ q :: v)], ?_, h2⟩
      simp [repRun, hu x (by simp), h1]
  obtain ⟨l1, l2, h1, h2⟩ := key
  rw [h1]
  refine head_after _ _ _ _ _ ?_ h
  rw [List.flatMap_eq_nil_iff]
  intro t ht
  obtain ⟨w, hw⟩ := h2 t ht
  refine hf t (fun xs hx => hv ?_)
  rw [hw, hx]
  simp

/-- Greedy repetition that stops where it must. -/
theorem greedy_stop {β} (p : Char → Bool) (w t : Str) (f : Str → List β) (r : β) (hw : ∀ x ∈ w, p x = true)
    (ht : ∀ x xs, t = x :: xs → p x = false) (h : (f t).head? = some r) : ((repRun false p (w ++ t)).flatMap f).head? = some r :=
  head_flatMap _ _ _ _ (repRun_greedy_head p w t hw ht) h

/-- Lazy repetition that goes on until what follows matches. -/
theorem lazy_until {β} (p : Char → Bool) (w t : Str) (f : Str → List β) (r : β) (hw : ∀ x ∈ w, p x = true)
    (hf : ∀ w1 w2, w = w1 ++ w2 → w2 ≠ [] → f (w2 ++ t) = []) (h : (f t).head? = some r) :
    ((repRun true p (w ++ t)).flatMap f).head? = some r := by
  induction w with
  | nil =>
    cases t with
    | nil => simpa [repRun] using h
    | cons x xs =>
      simp only [List.nil_append, repRun]
      split
      · simp only [if_true, List.flatMap_cons, List.head?_append, h, Option.some_or]
      · simpa using h
  | cons x w ih =>
    have h0 := hf [] (x :: w) rfl (by simp)
    rw [List.cons_append] at h0
    simp only [List.cons_append, repRun, hw x (by simp), if_true, List.flatMap_cons, h0, List.nil_append]
    exact ih (fun y hy => hw y (by simp [hy])) (fun w1 w2 e hn => hf (x :: w1) w2 (by simp [e]) hn)

/-- All attempts at a greedy or lazy repetition fail. -/
theorem rep_fail {β} (l : Bool) (p : Char → Bool) (s : Str) (f : Str → List β) (h : ∀ w t, s = w ++ t → f t = []) :
    (repRun l p s).flatMap f = [] := by
  rw [List.flatMap_eq_nil_iff]
  intro t ht
  obtain ⟨w, h1, -⟩ := repRun_sound _ _ _ _ ht
  exact h w t h1

/-! ## The parts of the cell -/

/-- `n` spaces -/
def sp (n : Nat) : Str := List.replicate n ' '

theorem sp_spc (n : Nat) : ∀ x ∈ sp n, (x == ' ') = true := by
  intro x hx
  rw [List.eq_of_mem_replicate hx]
  rfl

theorem sp_dot (n : Nat) : ∀ x ∈ sp n, isDot x = true := by
  intro x hx
  rw [List.eq_of_mem_replicate hx]
  rfl

theorem sp_succ (n : Nat) : sp (n + 1) = ' ' :: sp n := rfl

/-- A word: not empty, no spaces, colons or line ends. -/
def Word (c : Str) : Prop := c ≠ [] ∧ ' ' ∉ c ∧ ':' ∉ c ∧ '\n' ∉ c

theorem Word.dot {c : Str} (h : Word c) : ∀ x ∈ c, isDot x = true := by
  intro x hx
  have : x ≠ '\n' := fun e => h.2.2.2 (e ▸ hx)
  simp [isDot, this]

theorem Word.head {c : Str} (h : Word c) : ∃ x xs, c = x :: xs ∧ x ≠ ' ' ∧ isDot x = true := by
  obtain ⟨x, xs, e⟩ := List.exists_cons_of_ne_nil h.1
  exact ⟨x, xs, e, fun h1 => h.2.1 (by rw [e, h1]; simp), h.dot x (by rw [e]; simp)⟩

instance (c : Str) : Decidable (Word c) := by unfold Word; infer_instance

/-- `\ *$` after a text that has something else left. -/
theorem end_fail (s : Str) (c : Caps) (h : ∃ x ∈ s, x ≠ ' ' ∧ x ≠ '\n') : run (.seq spcs .eol) s c = [] := by
  unfold spcs
  rw [run_rep]
  rw [List.flatMap_eq_nil_iff]
  intro t ht
  obtain ⟨w, h1, h2⟩ := repRun_sound _ _ _ _ ht
  obtain ⟨x, hx, n1, n2⟩ := h
  have : x ∈ t := by
    rw [h1] at hx
    rcases List.mem_append.1 hx with h | h
    · exact absurd (by simpa using h2 x h) n1
    · exact h
  have h3 : t ≠ [] := by rintro rfl; simp at this
  have h4 : t ≠ ['\n'] := by
    rintro rfl
    simp at this
    exact n2 this
  simp [run, h3, h4]

theorem end_ok (c : Caps) : (run (.seq spcs .eol) [] c).head? = some (c, []) := by
  simp [spcs, run, repRun]

/-- The second configuration with its term, if any, up to the end. -/
def confRe : Re := .seq (.grp 3 (plusLazy isDot)) (.seq (.opt (.seq spcs1 (.grp 4 (plusLazy isDot)))) (.seq spcs .eol))

theorem opt_run (a b : Re) (s : Str) (c : Caps) : run (.seq (.opt a) b) s c = run (.seq a b) s c ++ run b s c := by
  simp [run]

theorem opt_fail (s : Str) (c : Caps) (x : Char) (xs : Str) (h : s = x :: xs) (hx : x ≠ ' ') (hn : x ≠ '\n') (a : Re) :
    run (.seq (.opt (.seq spcs1 a)) (.seq spcs .eol)) s c = [] := by
  rw [opt_run]
  have h1 : run (.seq (.seq spcs1 a) (.seq spcs .eol)) s c = [] := by
    have : run spcs1 s c = [] := by
      simp [spcs1, plus, run, h, hx]
    simp only [run] at this ⊢
    simp [this]
  rw [h1, List.nil_append]
  exact end_fail _ _ ⟨x, by simp [h], hx, hn⟩

theorem take_len (w t : Str) : (w ++ t).take ((w ++ t).length - t.length) = w := take_consumed w t

theorem conf_plain (c : Str) (hc : Word c) (k : Caps) : (run confRe c k).head? = some (Regex.upd 3 c k, []) := by
  obtain ⟨x, xs, rfl, hx, hd⟩ := hc.head
  unfold confRe plusLazy
  rw [run_grp_plus 3 true isDot _ x xs k hd]
  have := lazy_until isDot xs [] (fun t => run (.seq (.opt (.seq spcs1 (.grp 4 (.seq (.cls isDot) (.rep true isDot))))) (.seq spcs .eol)) t
    (Regex.upd 3 ((x :: xs).take ((x :: xs).length - t.length)) k)) (Regex.upd 3 (x :: xs) k, []) (fun y hy => hc.dot y (by simp [hy])) ?_ ?_
  · simpa using this
  · intro w1 w2 e hne
    obtain ⟨y, ys, rfl⟩ := List.exists_cons_of_ne_nil hne
    have hy : y ∈ x :: xs := by simp [e]
    exact opt_fail _ _ y (ys ++ []) rfl (fun h => hc.2.1 (h ▸ hy)) (fun h => hc.2.2.2 (h ▸ hy)) _
  · simp only [List.length_nil, Nat.sub_zero, List.take_length]
    rw [opt_run]
    have h1 : run (.seq (.seq spcs1 (.grp 4 (.seq (.cls isDot) (.rep true isDot)))) (.seq spcs .eol)) [] (Regex.upd 3 (x :: xs) k) = [] := by
      simp [spcs1, plus, run]
    rw [h1, List.nil_append]
    exact end_ok _

/-- A second term: not empty, no colon or line end, neither beginning nor ending with a space. -/
def Term2 (t : Str) : Prop := (∃ x xs, t = x :: xs ∧ x ≠ ' ') ∧ (∃ y ys, t = ys ++ [y] ∧ y ≠ ' ') ∧ ':' ∉ t ∧ '\n' ∉ t

theorem conf_term (c t : Str) (n : Nat) (hc : Word c) (ht : Term2 t) (k : Caps) :
    (run confRe (c ++ sp (n + 1) ++ t) k).head? = some (Regex.upd 4 t (Regex.upd 3 c k), []) := by
  obtain ⟨x, xs, rfl, hx, hd⟩ := hc.head
  obtain ⟨⟨z, zs, hz, hz1⟩, ⟨y, ys, hy, hy1⟩, -, hnl⟩ := ht
  have hdt : ∀ a ∈ t, isDot a = true := by
    intro a ha
    have : a ≠ '\n' := fun e => hnl (e ▸ ha)
    simp [isDot, this]
  unfold confRe plusLazy
  rw [List.append_assoc, List.cons_append, run_grp_plus 3 true isDot _ x _ k hd]
  refine lazy_until isDot xs (sp (n + 1) ++ t) _ _ (fun y hy => hc.dot y (by simp [hy])) ?_ ?_
  · intro w1 w2 e hne
    obtain ⟨y, ys, rfl⟩ := List.exists_cons_of_ne_nil hne
    have hy : y ∈ x :: xs := by simp [e]
    exact opt_fail _ _ y _ rfl (fun h => hc.2.1 (h ▸ hy)) (fun h => hc.2.2.2 (h ▸ hy)) _
  · have e0 : (x :: (xs ++ (sp (n + 1) ++ t))).take ((x :: (xs ++ (sp (n + 1) ++ t))).length - (sp (n + 1) ++ t).length) = x :: xs := by
      have := take_len (x :: xs) (sp (n + 1) ++ t)
      simpa using this
    simp only [e0]
    rw [opt_run, List.head?_append]
    have h1 : (run (.seq (.seq spcs1 (.grp 4 (.seq (.cls isDot) (.rep true isDot)))) (.seq spcs .eol)) (sp (n + 1) ++ t)
        (Regex.upd 3 (x :: xs) k)).head? = some (Regex.upd 4 t (Regex.upd 3 (x :: xs) k), []) := by
      have e1 : ∀ (a b d : Re) s c, run (.seq (.seq a b) d) s c = run (.seq a (.seq b d)) s c := by
        intro a b d s c
        simp [run, List.flatMap_assoc]
      rw [e1]
      unfold spcs1 plus
      rw [sp_succ, List.cons_append, run_plus false _ _ ' ' _ _ (by rfl)]
      refine greedy_stop _ (sp n) t _ _ (sp_spc n) (fun a as e => ?_) ?_
      · rw [hz] at e
        cases e
        simpa using hz1
      · rw [hz, run_grp_plus 4 true isDot _ z zs _ (hdt z (by simp [hz]))]
        have := lazy_until isDot zs [] (fun s => run (.seq spcs .eol) s (Regex.upd 4 ((z :: zs).take ((z :: zs).length - s.length)) (Regex.upd 3 (x :: xs) k)))
          (Regex.upd 4 (z :: zs) (Regex.upd 3 (x :: xs) k), []) (fun a ha => hdt a (by simp [hz, ha])) ?_ ?_
        · simpa using this
        · intro w1 w2 e hne
          refine end_fail _ _ ⟨y, ?_, hy1, fun h => hnl (by rw [hy, h]; simp)⟩
          have : (z :: w1) ++ w2 = ys ++ [y] := by rw [← hy, hz, e]; rfl
          obtain ⟨v, b, rfl⟩ : ∃ v b, w2 = v ++ [b] := ⟨_, _, (List.dropLast_append_getLast hne).symm⟩
          rw [← List.append_assoc] at this
          have := (List.append_inj' this rfl).2
          simp only [List.cons.injEq, and_true] at this
          simp [this]
        · simp only [List.length_nil, Nat.sub_zero, List.take_length]
          exact end_ok _
    rw [h1]
    rfl

/-- What follows the last colon. -/
def tailRe : Re := .seq spcs (.seq (.grp 2 digits) (.seq spcs1 confRe))

theorem natStr_cons (n : Nat) : ∃ a t, natStr n = a :: t ∧ isDig a = true := natStr_head n

theorem grp_digits (g n : Nat) (b : Re) (t : Str) (k : Caps) (r : Caps × Str) (ht : ∀ x xs, t = x :: xs → isDig x = false)
    (h : (run b t (Regex.upd g (natStr n) k)).head? = some r) : (run (.seq (.grp g digits) b) (natStr n ++ t) k).head? = some r := by
  obtain ⟨a, u, e, ha⟩ := natStr_cons n
  unfold digits plus
  have hall := natStr_dig n
  rw [e, List.cons_append, run_grp_plus g false isDig _ a _ k ha]
  refine greedy_stop isDig u t _ _ (fun x hx => hall x (by simp [e, hx])) ht ?_
  have : (a :: (u ++ t)).take ((a :: (u ++ t)).length - t.length) = natStr n := by
    rw [e]
    exact take_len (a :: u) t
  simp only [this]
  exact h

theorem spcs_skip (n : Nat) (b : Re) (t : Str) (k : Caps) (r : Caps × Str) (ht : ∀ x xs, t = x :: xs → x ≠ ' ')
    (h : (run b t k).head? = some r) : (run (.seq spcs b) (sp n ++ t) k).head? = some r := by
  unfold spcs
  rw [run_rep]
  exact greedy_stop _ (sp n) t _ _ (sp_spc n) (fun x xs e => by simpa using ht x xs e) h

theorem spcs1_skip (n : Nat) (b : Re) (t : Str) (k : Caps) (r : Caps × Str) (ht : ∀ x xs, t = x :: xs → x ≠ ' ')
    (h : (run b t k).head? = some r) : (run (.seq spcs1 b) (sp (n + 1) ++ t) k).head? = some r := by
  unfold spcs1 plus
  rw [sp_succ, List.cons_append, run_plus false _ _ ' ' _ _ (by rfl)]
  exact greedy_stop _ (sp n) t _ _ (sp_spc n) (fun x xs e => by simpa using ht x xs e) h

theorem dig_ne_spc {x : Char} (h : isDig x = true) : x ≠ ' ' := fun e => by rw [e] at h; exact absurd h (by decide)

theorem tail_run (d q e : Nat) (s : Str) (k : Caps) (r : Caps × Str) (hs : ∃ x xs, s = x :: xs ∧ x ≠ ' ')
    (h : (run confRe s (Regex.upd 2 (natStr q) k)).head? = some r) :
    (run tailRe (sp d ++ natStr q ++ sp (e + 1) ++ s) k).head? = some r := by
  obtain ⟨x, xs, rfl, hx⟩ := hs
  unfold tailRe
  rw [List.append_assoc, List.append_assoc]
  refine spcs_skip d _ _ _ _ ?_ (grp_digits 2 q _ _ _ _ ?_ (spcs1_skip e _ _ _ _ ?_ h))
  · intro y ys hy
    obtain ⟨a, u, e', ha⟩ := natStr_cons q
    rw [e'] at hy
    cases hy
    exact dig_ne_spc ha
  · intro y ys hy
    cases hy
    rfl
  · intro y ys hy
    cases hy
    exact hx

/-- From the colon on, with `.*` in front. -/
def midRe : Re := .seq spcs (.seq anyStar (.seq (chr ':') tailRe))

theorem mid_run (m R : Str) (k : Caps) (r : Caps × Str) (hm : ∀ x ∈ m, isDot x = true) (hR : ':' ∉ R)
    (h : (run tailRe R k).head? = some r) : (run midRe (m ++ ':' :: R) k).head? = some r := by
  unfold midRe spcs
  rw [run_rep]
  have key : (repRun false (fun c => c == ' ') (m ++ ':' :: R)).head? = some (m.dropWhile (fun c => c == ' ') ++ ':' :: R) := by
    have e : m ++ ':' :: R = m.takeWhile (fun c => c == ' ') ++ (m.dropWhile (fun c => c == ' ') ++ ':' :: R) := by
      rw [← List.append_assoc, List.takeWhile_append_dropWhile]
    rw [e]
    refine repRun_greedy_head _ _ _ (fun x hx => List.all_eq_true.1 (List.all_takeWhile (p := fun c => c == ' ') (l := m)) x hx) (fun x xs hx => ?_)
    cases hd : m.dropWhile (fun c => c == ' ') with
    | nil => rw [hd] at hx; cases hx; rfl
    | cons y ys =>
      rw [hd] at hx
      cases hx
      have := List.head_dropWhile_not (fun c => c == ' ') (l := m) (by rw [hd]; simp)
      simpa [hd] using this
  refine head_flatMap _ _ _ _ key ?_
  unfold anyStar
  rw [run_rep]
  refine greedy_last isDot _ ':' R _ _ (fun x hx => hm x (List.dropWhile_sublist _ |>.subset hx)) rfl hR ?_ ?_
  · intro t ht
    cases t with
    | nil => simp [run, chr]
    | cons y ys => exact run_seq_chr_nil ':' y _ ys k (fun e => ht ys (by rw [e]))
  · simp only [run, chr, beq_self_eq_true, if_true, List.flatMap_cons, List.flatMap_nil, List.append_nil]
    exact h

theorem mid_fail (s : Str) (k : Caps) (h : ':' ∉ s) : run midRe s k = [] := by
  unfold midRe spcs
  rw [run_rep]
  refine rep_fail _ _ _ _ (fun w t e => ?_)
  unfold anyStar
  rw [run_rep]
  refine rep_fail _ _ _ _ (fun w' t' e' => ?_)
  cases t' with
  | nil => simp [run, chr]
  | cons y ys =>
    refine run_seq_chr_nil ':' y _ ys k (fun hy => h ?_)
    rw [e, e', hy]
    simp

theorem spcs_two (a : Nat) (R : Str) :
    ∃ l, repRun false (fun c => c == ' ') (sp a ++ ' ' :: ':' :: R) = (':' :: R) :: (' ' :: ':' :: R) :: l := by
  induction a with
  | zero => exact ⟨[], by simp [sp, repRun]⟩
  | succ a ih =>
    obtain ⟨l, hl⟩ := ih
    exact ⟨l ++ [sp (a + 1) ++ ' ' :: ':' :: R], by rw [sp_succ]; simp [repRun, hl]⟩

theorem rePct_eq : rePct = .seq spcs (.seq (.grp 1 digits) (.seq spcs1 (.seq (plusLazy isDot) midRe))) := rfl

/-- The text between the first percentage and the colon: spaces, or spaces and a term with more spaces. -/
def Middle (m : Str) : Prop := (∃ a, m = sp (a + 2)) ∨ ∃ a x u, m = sp (a + 1) ++ x :: u ∧ x ≠ ' ' ∧ '\n' ∉ x :: u

theorem rePct_run (p : Nat) (m R : Str) (r : Caps × Str) (hm : Middle m) (hR : ':' ∉ R)
    (h : (run tailRe R (Regex.upd 1 (natStr p) Caps.none)).head? = some r) : match? rePct (natStr p ++ m ++ ':' :: R) = some r := by
  have hc : ∃ xs, m = ' ' :: xs := by
    rcases hm with ⟨a, rfl⟩ | ⟨a, x, u, rfl, -⟩
    · exact ⟨_, rfl⟩
    · exact ⟨sp a ++ x :: u, rfl⟩
  unfold match?
  rw [rePct_eq, List.append_assoc]
  refine spcs_skip 0 _ _ _ _ ?_ (grp_digits 1 p _ _ _ _ ?_ ?_)
  · intro y ys hy
    obtain ⟨a, u, e', ha⟩ := natStr_cons p
    rw [e'] at hy
    cases hy
    exact dig_ne_spc ha
  · intro y ys hy
    obtain ⟨xs, rfl⟩ := hc
    cases hy
    rfl
  · rcases hm with ⟨a, rfl⟩ | ⟨a, x, u, rfl, hx, hn⟩
    · unfold spcs1 plus plusLazy
      have e1 : sp (a + 2) ++ ':' :: R = ' ' :: (sp a ++ ' ' :: ':' :: R) := by
        have : sp (a + 2) = ' ' :: (sp a ++ [' ']) := by
          rw [sp_succ]; congr 1; unfold sp; rw [List.replicate_succ']
        rw [this]; simp
      rw [e1, run_plus false _ _ ' ' _ _ (by rfl)]
      obtain ⟨l, hl⟩ := spcs_two a R
      rw [hl]
      refine head_after [':' :: R] (' ' :: ':' :: R) l _ _ ?_ ?_
      · simp only [List.flatMap_cons, List.flatMap_nil, List.append_nil]
        rw [run_plus true isDot _ ':' R _ rfl]
        refine rep_fail _ _ _ _ (fun w t e => mid_fail _ _ (fun hh => hR (by rw [e]; simp [hh])))
      · rw [run_plus true isDot _ ' ' _ _ rfl]
        refine lazy_until isDot [] (':' :: R) _ _ (by simp) (by intro w1 w2 e hne; simp at e; exact absurd e.2 hne) ?_
        exact mid_run [] R _ _ (by simp) hR h
    · rw [List.append_assoc]
      refine spcs1_skip a _ _ _ _ (fun y ys hy => by cases hy; exact hx) ?_
      unfold plusLazy
      have hd : ∀ y ∈ x :: u, isDot y = true := by
        intro y hy
        have : y ≠ '\n' := fun e => hn (e ▸ hy)
        simp [isDot, this]
      rw [List.cons_append, run_plus true isDot _ x _ _ (hd x (by simp))]
      refine lazy_until isDot [] _ _ _ (by simp) (by intro w1 w2 e hne; simp at e; exact absurd e.2 hne) ?_
      exact mid_run u R _ _ (fun y hy => hd y (by simp [hy])) hR h

theorem search_of_match {r : Re} {s : Str} {m : Caps × Str} (h : match? r s = some m) : search? r s = some m.1 := by
  cases s with
  | nil => simp [search?, h]
  | cons x xs => simp [search?, h]

end AtomTk.Nist
