import Verif.Model.Parse
import Verif.Proofs.Text

/-! # Lemmas on the regular-expression matcher -/

namespace AtomTk.Regex
open AtomTk

/-- The texts a pattern can match (no priorities, no captures). -/
def Lang : Re → Str → Prop
  | .eps, w => w = []
  | .cls p, w => ∃ x, w = [x] ∧ p x = true
  | .seq a b, w => ∃ u v, w = u ++ v ∧ Lang a u ∧ Lang b v
  | .alt a b, w => Lang a w ∨ Lang b w
  | .rep _ p, w => ∀ x ∈ w, p x = true
  | .opt a, w => w = [] ∨ Lang a w
  | .grp _ a, w => Lang a w
  | .eol, w => w = []

theorem repRun_sound (l : Bool) (p : Char → Bool) (s t : Str) (h : t ∈ repRun l p s) :
    ∃ w, s = w ++ t ∧ ∀ x ∈ w, p x = true := by
  induction s with
  | nil => simp [repRun] at h; subst h; exact ⟨[], by simp⟩
  | cons a r ih =>
    simp only [repRun] at h
    split at h
    · rename_i ha
      split at h
      · simp only [List.mem_cons] at h
        rcases h with rfl | h
        · exact ⟨[], by simp⟩
        · obtain ⟨w, h1, h2⟩ := ih h
          exact ⟨a :: w, by simp [h1], by simpa [ha] using h2⟩
      · simp only [List.mem_append, List.mem_singleton] at h
        rcases h with h | rfl
        · obtain ⟨w, h1, h2⟩ := ih h
          exact ⟨a :: w, by simp [h1], by simpa [ha] using h2⟩
        · exact ⟨[], by simp⟩
    · simp at h; subst h; exact ⟨[], by simp⟩

/-- Every reported match is a prefix of the text lying in the language of the pattern. -/
theorem run_sound (r : Re) (s : Str) (c c' : Caps) (t : Str) (h : (c', t) ∈ run r s c) :
    ∃ w, s = w ++ t ∧ Lang r w := by
  induction r generalizing s c c' t with
  | eps => simp [run] at h; exact ⟨[], by simp [h.2], rfl⟩
  | cls p =>
    cases s with
    | nil => simp [run] at h
    | cons x xs =>
      simp only [run] at h
      split at h
      · rename_i hp
        simp at h; exact ⟨[x], by simp [h.2], x, rfl, hp⟩
      · simp at h
  | seq a b iha ihb =>
    simp only [run, List.mem_flatMap] at h
    obtain ⟨⟨c1, s1⟩, h1, h2⟩ := h
    obtain ⟨u, rfl, hu⟩ := iha _ _ _ _ h1
    obtain ⟨v, rfl, hv⟩ := ihb _ _ _ _ h2
    exact ⟨u ++ v, by simp, u, v, rfl, hu, hv⟩
  | alt a b iha ihb =>
    simp only [run, List.mem_append] at h
    rcases h with h | h
    · obtain ⟨w, hw, hl⟩ := iha _ _ _ _ h; exact ⟨w, hw, .inl hl⟩
    · obtain ⟨w, hw, hl⟩ := ihb _ _ _ _ h; exact ⟨w, hw, .inr hl⟩
  | rep l p =>
    simp only [run, List.mem_map, Prod.mk.injEq] at h
    obtain ⟨t', h1, h2, rfl⟩ := h
    exact repRun_sound l p s _ h1
  | opt a iha =>
    simp only [run, List.mem_append, List.mem_singleton, Prod.mk.injEq] at h
    rcases h with h | ⟨_, rfl⟩
    · obtain ⟨w, hw, hl⟩ := iha _ _ _ _ h; exact ⟨w, hw, .inr hl⟩
    · exact ⟨[], by simp, .inl rfl⟩
  | grp n a iha =>
    simp only [run, List.mem_map, Prod.mk.injEq] at h
    obtain ⟨⟨c1, s1⟩, h1, h2, rfl⟩ := h
    exact iha _ _ _ _ h1
  | eol =>
    simp only [run] at h
    split at h
    · simp at h; exact ⟨[], by simp [h.2], rfl⟩
    · simp at h

/-- If no prefix of the text is in the language then there is no match. -/
theorem run_nil_of_lang (r : Re) (s : Str) (c : Caps) (h : ∀ w t, s = w ++ t → ¬ Lang r w) : run r s c = [] := by
  cases hr : run r s c with
  | nil => rfl
  | cons x xs =>
    obtain ⟨w, hw, hl⟩ := run_sound r s c x.1 x.2 (by rw [hr]; simp)
    exact absurd hl (h w _ hw)

/-! ## Scanning -/

theorem match?_len (r : Re) (s : Str) (c : Caps) (t : Str) (h : match? r s = some (c, t)) : t.length ≤ s.length := by
  have : (c, t) ∈ run r s Caps.none := List.mem_of_head? h
  obtain ⟨w, hw, _⟩ := run_sound _ _ _ _ _ this
  simp [hw]

theorem scanF_fuel (r : Re) (f g : Nat) (s : Str) (hf : s.length < f) (hg : s.length < g) : scanF r f s = scanF r g s := by
  induction f generalizing s g with
  | zero => omega
  | succ f ih =>
    cases g with
    | zero => omega
    | succ g =>
      simp only [scanF]
      split
      · rename_i c t h
        split
        · rename_i ht
          rw [ih g t (by omega) (by omega)]
        · cases s with
          | nil => rfl
          | cons x xs => simp only [List.length_cons] at hf hg; dsimp only; rw [ih g xs (by omega) (by omega)]
      · cases s with
        | nil => rfl
        | cons x xs => simp only [List.length_cons] at hf hg; exact ih g xs (by omega) (by omega)

/-- `scanF` with enough fuel. -/
def scan (r : Re) (s : Str) : List (Caps × Str) := scanF r (s.length + 1) s

theorem scan_nil (r : Re) (h : run r [] Caps.none = []) : scan r [] = [] := by
  simp [scan, scanF, match?, h]

theorem scan_skip (r : Re) (x : Char) (xs : Str) (h : run r (x :: xs) Caps.none = []) :
    scan r (x :: xs) = scan r xs := by
  simp only [scan, List.length_cons]
  rw [scanF]
  simp only [match?, h, List.head?_nil]

theorem scan_match (r : Re) (s t : Str) (c : Caps) (h : (run r s Caps.none).head? = some (c, t))
    (ht : t.length < s.length) : scan r s = (c, s.take (s.length - t.length)) :: scan r t := by
  simp only [scan]
  conv_lhs => unfold scanF
  simp only [match?, h, if_pos ht]
  rw [scanF_fuel r s.length (t.length + 1) t ht (by omega)]

theorem scan_skip_list (r : Re) (pre t : Str)
    (h : ∀ a b, pre = a ++ b → b ≠ [] → run r (b ++ t) Caps.none = []) : scan r (pre ++ t) = scan r t := by
  induction pre with
  | nil => rfl
  | cons x xs ih =>
    rw [List.cons_append, scan_skip]
    · exact ih (fun a b hab hb => h (x :: a) b (by simp [hab]) hb)
    · exact h [] (x :: xs) rfl (by simp)

theorem scan_skip_all (r : Re) (pre : Str) (h0 : run r [] Caps.none = [])
    (h : ∀ a b, pre = a ++ b → b ≠ [] → run r b Caps.none = []) : scan r pre = [] := by
  have := scan_skip_list r pre [] (fun a b hab hb => by simpa using h a b hab hb)
  rw [List.append_nil, scan_nil r h0] at this
  exact this

/-! ## First results -/

theorem head_flatMap {α β} (l : List α) (f : α → List β) (a : α) (b : β) (h : l.head? = some a)
    (hf : (f a).head? = some b) : (l.flatMap f).head? = some b := by
  cases l with
  | nil => simp at h
  | cons x xs =>
    simp at h; subst h
    cases hx : f x with
    | nil => simp [hx] at hf
    | cons y ys => simp [hx] at hf; simp [hx, hf]

theorem run_seq_head (a b : Re) (s s1 : Str) (c c1 : Caps) (r : Caps × Str)
    (h1 : (run a s c).head? = some (c1, s1)) (h2 : (run b s1 c1).head? = some r) :
    (run (.seq a b) s c).head? = some r := by
  simp only [run]
  exact head_flatMap _ _ _ _ h1 h2

theorem run_cls_head (p : Char → Bool) (x : Char) (xs : Str) (c : Caps) (h : p x = true) :
    run (.cls p) (x :: xs) c = [(c, xs)] := by simp [run, h]

theorem run_chr (x : Char) (xs : Str) (c : Caps) : run (chr x) (x :: xs) c = [(c, xs)] := by
  simp [chr, run]

theorem run_chr_ne (q x : Char) (xs : Str) (c : Caps) (h : x ≠ q) : run (chr q) (x :: xs) c = [] := by
  simp [chr, run, h]

/-- Updating one captured group. -/
def upd (n : Nat) (w : Str) (c : Caps) : Caps := fun m => if m = n then some w else c m

theorem take_consumed (w t : Str) : (w ++ t).take ((w ++ t).length - t.length) = w := by
  simp

theorem run_grp_head (n : Nat) (a : Re) (w t : Str) (c c1 : Caps)
    (h : (run a (w ++ t) c).head? = some (c1, t)) : (run (.grp n a) (w ++ t) c).head? = some (upd n w c1, t) := by
  simp only [run, List.head?_map, h, Option.map_some, take_consumed]
  rfl

theorem repRun_greedy_head (p : Char → Bool) (w t : Str) (hw : ∀ x ∈ w, p x = true)
    (ht : ∀ x xs, t = x :: xs → p x = false) : (repRun false p (w ++ t)).head? = some t := by
  induction w with
  | nil =>
    cases t with
    | nil => rfl
    | cons x xs => simp [repRun, ht x xs rfl]
  | cons a r ih =>
    have := ih (fun x hx => hw x (by simp [hx]))
    simp only [List.cons_append, repRun, hw a (by simp), if_true, Bool.false_eq_true, if_false]
    cases hr : repRun false p (r ++ t) with
    | nil => simp [hr] at this
    | cons y ys => simp [hr] at this; simp [this]

theorem run_plus_head (p : Char → Bool) (w t : Str) (c : Caps) (hn : w ≠ []) (hw : ∀ x ∈ w, p x = true)
    (ht : ∀ x xs, t = x :: xs → p x = false) : (run (plus p) (w ++ t) c).head? = some (c, t) := by
  cases w with
  | nil => exact absurd rfl hn
  | cons a r =>
    refine run_seq_head _ _ _ (r ++ t) c c _ ?_ ?_
    · simp [run, hw a (by simp)]
    · simp only [run, List.head?_map, repRun_greedy_head p r t (fun x hx => hw x (by simp [hx])) ht, Option.map_some]

theorem run_opt_take (a : Re) (s : Str) (c : Caps) (r : Caps × Str) (h : (run a s c).head? = some r) :
    (run (.opt a) s c).head? = some r := by
  simp only [run]
  cases hx : run a s c with
  | nil => simp [hx] at h
  | cons y ys => simpa [hx] using h

theorem run_opt_skip (a : Re) (s : Str) (c : Caps) (h : run a s c = []) : (run (.opt a) s c).head? = some (c, s) := by
  simp [run, h]

theorem run_alt_left (a b : Re) (s : Str) (c : Caps) (r : Caps × Str) (h : (run a s c).head? = some r) :
    (run (.alt a b) s c).head? = some r := by
  simp only [run]
  cases hx : run a s c with
  | nil => simp [hx] at h
  | cons y ys => simpa [hx] using h

/-- A lazy repetition followed by something that can only start with `q` stops at the first `q`. -/
theorem flatMap_lazy_head {β} (p : Char → Bool) (w t : Str) (q : Char) (f : Str → List β) (r : β)
    (hw : ∀ x ∈ w, p x = true) (hq : q ∉ w)
    (hf : ∀ x xs, x ≠ q → f (x :: xs) = []) (hr : (f (q :: t)).head? = some r) :
    ((repRun true p (w ++ q :: t)).flatMap f).head? = some r := by
  induction w with
  | nil =>
    simp only [List.nil_append, repRun]
    split
    · cases hx : f (q :: t) with
      | nil => simp [hx] at hr
      | cons y ys => simp [hx] at hr; simp [hx, hr]
    · simpa using hr
  | cons a l ih =>
    simp only [List.mem_cons, not_or] at hq
    simp only [List.cons_append, repRun, hw a (by simp), if_true, List.flatMap_cons,
      hf a _ (Ne.symm hq.1), List.nil_append]
    exact ih (fun x hx => hw x (by simp [hx])) hq.2

theorem run_lazy_grp (n : Nat) (p : Char → Bool) (w t : Str) (q : Char) (b : Re) (c : Caps) (r : Caps × Str)
    (hn : w ≠ []) (hw : ∀ x ∈ w, p x = true) (hq : q ∉ w)
    (hb : ∀ x xs c', x ≠ q → run b (x :: xs) c' = [])
    (hr : (run b (q :: t) (upd n w c)).head? = some r) :
    (run (.seq (.grp n (plusLazy p)) b) (w ++ q :: t) c).head? = some r := by
  cases w with
  | nil => exact absurd rfl hn
  | cons a l =>
    simp only [List.mem_cons, not_or] at hq
    have e : run (.seq (.grp n (plusLazy p)) b) (a :: l ++ q :: t) c =
        (repRun true p (l ++ q :: t)).flatMap (fun t' =>
          run b t' (upd n ((a :: (l ++ q :: t)).take ((a :: (l ++ q :: t)).length - t'.length)) c)) := by
      simp only [run, plusLazy, List.cons_append, hw a (by simp), if_true, List.flatMap_cons, List.flatMap_nil,
        List.append_nil, List.map_map, List.flatMap_map]
      rfl
    rw [e]
    refine flatMap_lazy_head p l t q _ r (fun x hx => hw x (by simp [hx])) hq.2 ?_ ?_
    · intro x xs hx; exact hb x xs _ hx
    · have := take_consumed (a :: l) (q :: t)
      simp only [List.cons_append] at this
      rw [this]; exact hr

/-- Nothing but the first character is looked at. -/
theorem run_seq_chr_nil (q x : Char) (b : Re) (xs : Str) (c : Caps) (h : x ≠ q) :
    run (.seq (chr q) b) (x :: xs) c = [] := by
  simp [run, run_chr_ne q x xs c h]

end AtomTk.Regex
