import Verif.Text.ComplyDiffs
import Verif.Text.ComplyLay

/-!
# The characters of the tree and their tokens (for ud.ComplyWithText)
-/

namespace Verif.Text.Comply
open Verif.Py

/-- The position at which the `n`-th piece starts. -/
def pos (ps : List Str) (n : Nat) : Nat := (ps.take n).flatten.length

theorem pos_cons (s : Str) (ps : List Str) (n : Nat) : pos (s :: ps) (n + 1) = s.length + pos ps n := by simp [pos]

theorem pos_zero (ps : List Str) : pos ps 0 = 0 := by simp [pos]

theorem pos_le : ∀ (ps : List Str) (n : Nat), pos ps n ≤ ps.flatten.length
  | [], n => by simp [pos]
  | s :: ps, 0 => by simp [pos]
  | s :: ps, n + 1 => by
    have := pos_le ps n
    rw [pos_cons]
    simp only [List.flatten_cons, List.length_append]
    omega

theorem pos_lt : ∀ (ps : List Str) (n m : Nat), (∀ s ∈ ps, s ≠ []) → n < m → m ≤ ps.length → pos ps n < pos ps m
  | [], n, m, _, h1, h2 => by simp at h2; omega
  | s :: ps, n, 0, _, h1, _ => by omega
  | s :: ps, 0, m + 1, h, _, _ => by
    have := List.length_pos_iff.2 (h s (List.mem_cons_self ..))
    rw [pos_cons, pos_zero]
    omega
  | s :: ps, n + 1, m + 1, h, h1, h2 => by
    have := pos_lt ps n m (fun x hx => h x (List.mem_cons_of_mem _ hx)) (by omega) (by simpa using h2)
    rw [pos_cons, pos_cons]
    omega

theorem starts_length : ∀ (k : Nat) (ps : List Str), (∀ s ∈ ps, s ≠ []) → (starts k ps).length = ps.flatten.length
  | _, [], _ => rfl
  | k, s :: ps, h => by
    have := List.length_pos_iff.2 (h s (List.mem_cons_self ..))
    have ih := starts_length (k + 1) ps (fun x hx => h x (List.mem_cons_of_mem _ hx))
    unfold starts
    simp only [List.length_append, List.length_cons, List.length_replicate, List.flatten_cons, ih]
    omega

theorem cell_length {s : Str} (h : s ≠ []) (k : Nat) : (some k :: List.replicate (s.length - 1) none).length = s.length := by
  have := List.length_pos_iff.2 h
  simp only [List.length_cons, List.length_replicate]
  omega

theorem starts_take : ∀ (k : Nat) (ps : List Str) (n : Nat), (∀ s ∈ ps, s ≠ []) → (starts k ps).take (pos ps n) = starts k (ps.take n)
  | k, [], n, _ => by simp [starts]
  | k, s :: ps, 0, _ => by simp [pos, starts]
  | k, s :: ps, n + 1, h => by
    have ih := starts_take (k + 1) ps n (fun x hx => h x (List.mem_cons_of_mem _ hx))
    rw [pos_cons, List.take_succ_cons]
    unfold starts
    have hc := cell_length (h s (List.mem_cons_self ..)) k
    generalize (some k :: List.replicate (s.length - 1) none) = cell at hc ⊢
    rw [← hc, List.take_length_add_append, ih]

theorem starts_drop : ∀ (k : Nat) (ps : List Str) (n : Nat), n ≤ ps.length → (∀ s ∈ ps, s ≠ []) →
    (starts k ps).drop (pos ps n) = starts (k + n) (ps.drop n)
  | k, [], n, hn, _ => by simp [starts]
  | k, s :: ps, 0, _, _ => by simp [pos]
  | k, s :: ps, n + 1, hn, h => by
    have ih := starts_drop (k + 1) ps n (by simpa using hn) (fun x hx => h x (List.mem_cons_of_mem _ hx))
    rw [pos_cons, List.drop_succ_cons]
    conv => lhs; unfold starts
    have hc := cell_length (h s (List.mem_cons_self ..)) k
    generalize (some k :: List.replicate (s.length - 1) none) = cell at hc ⊢
    rw [← hc, List.drop_length_add_append, ih, Nat.add_assoc, Nat.add_comm 1]

theorem starts_ids : ∀ (k : Nat) (ps : List Str), (starts k ps).filterMap id = List.range' k ps.length
  | _, [] => rfl
  | k, s :: ps => by
    unfold starts
    rw [List.filterMap_append, List.filterMap_cons, starts_ids (k + 1) ps]
    have : (List.replicate (s.length - 1) (none : Option Nat)).filterMap id = [] := by
      rw [List.filterMap_eq_nil_iff]
      intro x hx
      rw [(List.mem_replicate.1 hx).2]
      rfl
    rw [this]
    rfl

/-- A token starts at the start of a piece. -/
theorem start_pos : ∀ (k : Nat) (ps : List Str) (q : Nat), (∀ s ∈ ps, s ≠ []) → start (starts k ps) q = true ∨ q = ps.flatten.length →
    ∃ n, n ≤ ps.length ∧ q = pos ps n ∧ (start (starts k ps) q = true → n < ps.length)
  | k, [], q, _, h => by
    rcases h with h | h
    · simp [starts, start] at h
    · exact ⟨0, Nat.le_refl _, h, fun hx => by simp [starts, start] at hx⟩
  | k, s :: ps, q, hs, h => by
    have hs1 := hs s (List.mem_cons_self ..)
    have hl := List.length_pos_iff.2 hs1
    have hc := cell_length hs1 k
    by_cases hq : q < s.length
    · have : start (starts k (s :: ps)) q = true := by
        rcases h with h | h
        · exact h
        · simp only [List.flatten_cons, List.length_append] at h; omega
      have hz : q = 0 := by
        cases q with
        | zero => rfl
        | succ q =>
          exfalso
          unfold start starts at this
          rw [List.getElem?_append_left (by omega), List.getElem?_cons_succ, List.getElem?_replicate] at this
          rw [if_pos (by omega)] at this
          cases this
      exact ⟨0, Nat.zero_le _, by rw [hz, pos_zero], fun _ => by simp⟩
    · have e : ∀ q', start (starts k (s :: ps)) (s.length + q') = start (starts (k + 1) ps) q' := by
        intro q'
        unfold start
        conv => lhs; unfold starts
        rw [List.getElem?_append_right (by omega), hc, Nat.add_sub_cancel_left]
      have hq' : q = s.length + (q - s.length) := by omega
      rw [hq', e] at h
      obtain ⟨n, h1, h2, h3⟩ := start_pos (k + 1) ps (q - s.length) (fun x hx => hs x (List.mem_cons_of_mem _ hx)) (by
        rcases h with h | h
        · exact .inl h
        · right; simp only [List.flatten_cons, List.length_append] at h; omega)
      refine ⟨n + 1, by simpa using h1, by rw [pos_cons, ← h2]; exact hq', ?_⟩
      intro hx
      rw [hq', e] at hx
      have := h3 hx
      simpa using this

/-- The character at the start of a piece. -/
theorem flatten_pos : ∀ (ps : List Str) (n : Nat), n < ps.length → (∀ s ∈ ps, s ≠ []) → ∃ s ∈ ps, ps.flatten[pos ps n]? = s.head?
  | [], n, h, _ => by simp at h
  | s :: ps, 0, _, hs => by
    refine ⟨s, List.mem_cons_self .., ?_⟩
    rw [pos_zero, List.flatten_cons]
    cases s with
    | nil => exact absurd rfl (hs [] (List.mem_cons_self ..))
    | cons c s => rfl
  | s :: ps, n + 1, h, hs => by
    obtain ⟨x, h1, h2⟩ := flatten_pos ps n (by simpa using h) (fun x hx => hs x (List.mem_cons_of_mem _ hx))
    refine ⟨x, List.mem_cons_of_mem _ h1, ?_⟩
    rw [pos_cons, List.flatten_cons, List.getElem?_append_right (by omega), Nat.add_sub_cancel_left, h2]

theorem cells_starts {ps : List Str} (hs : ∀ s ∈ ps, s ≠ [] ∧ s.head? ≠ some ' ') : Cells (starts 0 ps) ps.flatten := by
  have h1 : ∀ s ∈ ps, s ≠ [] := fun s h => (hs s h).1
  refine ⟨starts_length 0 ps h1, ?_, ?_⟩
  · intro k hk
    obtain ⟨n, _, h2, h3⟩ := start_pos 0 ps k h1 (.inl hk)
    obtain ⟨s, h4, h5⟩ := flatten_pos ps n (h3 hk) h1
    rw [h2, h5]
    exact (hs s h4).2
  · intro hne
    cases ps with
    | nil => exact absurd rfl hne
    | cons s ps => rfl

/-! ## Tokens -/

theorem close_forms : ∀ toks : List Tk, (close toks).map Tk.form = toks.map Tk.form
  | [] => rfl
  | [_] => rfl
  | t :: u :: ts => by
    unfold close
    rw [List.map_cons, close_forms (u :: ts)]
    rfl

theorem close_length (toks : List Tk) : (close toks).length = toks.length := by
  have := congrArg List.length (close_forms toks)
  simpa using this

/-- The forms are not empty and have no white space at their ends. -/
def Good (toks : List Tk) : Prop := ∀ t ∈ toks, startsWs t.form = false ∧ Closed t.form

theorem head_of_good {f : Str} (h1 : startsWs f = false) (h2 : Closed f) : ∃ c r, f = c :: r ∧ isWs c = false := by
  cases f with
  | nil => exact absurd rfl h2.ne
  | cons c r => exact ⟨c, r, rfl, h1⟩

theorem spaced_good {toks : List Tk} (h : Good toks) : ∀ s ∈ toks.map spaced, s ≠ [] ∧ s.head? ≠ some ' ' := by
  intro s hs
  obtain ⟨t, ht, rfl⟩ := List.mem_map.1 hs
  obtain ⟨c, r, e, hc⟩ := head_of_good (h t ht).1 (h t ht).2
  have hne : c ≠ ' ' := by rintro rfl; rw [isWs_space] at hc; cases hc
  unfold spaced
  split <;> rw [e] <;> simp [hne]

theorem good_close {toks : List Tk} (h : Good toks) : Good (close toks) := by
  intro t ht
  have : t.form ∈ (close toks).map Tk.form := List.mem_map_of_mem ht
  rw [close_forms] at this
  obtain ⟨u, hu, e⟩ := List.mem_map.1 this
  rw [← e]
  exact h u hu

theorem cells_good {toks : List Tk} (h : Good toks) : Cells (nodes toks) (chars toks) := cells_starts (spaced_good (good_close h))

theorem lay_spaced : ∀ toks : List Tk, Lay (toks.map Tk.form) (toks.map spaced).flatten
  | [] => lay_nil
  | t :: ts => by
    show Lay (t.form :: ts.map Tk.form) (spaced t ++ (ts.map spaced).flatten)
    have ih := lay_spaced ts
    unfold spaced
    split
    · exact ih.cons _
    · rw [List.append_assoc]
      refine Lay.cons _ (ih.left ?_)
      intro c hc
      rw [List.mem_singleton.1 hc]
      exact isWs_space

end Verif.Text.Comply
