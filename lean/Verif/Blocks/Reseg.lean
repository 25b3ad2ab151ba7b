import Verif.Py.Str

/-!
# Property C118: the sentences of util.ResegmentGold (udapi/block/util/resegmentgold.py)

A tree is the list of the forms of its tokens (`token_descendants`); the dependency trees are in `Verif/Blocks/ResegRoot.lean`.
Simplified: gold trees have words (otherwise `choose_root` may raise IndexError), the pred trees are given in the order of the
document, and all of them have the same zone, different from the gold zone.
-/

namespace Verif.Blocks.Reseg
open Verif.Py

/-- The exceptions -/
inductive RErr where
  | indexError
  | valueError
  deriving DecidableEq

variable (zs : Char → Bool)

/-- `_strip_spaces` (resegmentgold.py:24-25); `zs`: `unicodedata.category(c) == "Zs"` -/
def strip (s : Str) : Str := s.filter (fun c => !zs c)

/-- `self._strip_spaces(''.join(t.form for t in tree.token_descendants))` (resegmentgold.py:39-42) -/
def chars (ts : List Str) : Str := strip zs ts.flatten

/-- `while len(p_chars) < len(g_chars)` (resegmentgold.py:49-55): the tree `p` and the remaining trees. `steal_nodes([])` raises
IndexError (root.py:268). -/
def grow (g : Str) : List Str → List (List Str) → Except RErr (List Str × List (List Str))
  | p, [] => if (chars zs p).length < g.length then .error .valueError else .ok (p, [])
  | p, q :: qs =>
    if (chars zs p).length < g.length then if q = [] then .error .indexError else grow g (p ++ q) qs else .ok (p, q :: qs)

/-- How the tree is cut: after a token, or at its end with the rest of the last token as a new tree. -/
inductive Cut where
  | after (left right : List Str)
  | cross (left : List Str) (rest : Str)
  | never
  deriving DecidableEq

/-- `for index, token in enumerate(tokens)` (resegmentgold.py:65-94) -/
def cut (n : Nat) : Str → List Str → List Str → Cut
  | _, _, [] => .never
  | acc, done, t :: ts =>
    let acc' := acc ++ strip zs t
    if n < acc'.length then
      match ts with
      | [] => .cross (done ++ [t]) (acc'.drop n)
      | u :: us => .after (done ++ [t]) ((acc'.drop n ++ u) :: us)
    else if acc'.length = n then .after (done ++ [t]) ts
    else cut n acc' (done ++ [t]) ts

/-- `process_document` (resegmentgold.py:36-109) for the gold trees and the pred trees: the new pred trees of the bundles.
`choose_root(next_p_tree, …, document.bundles[bundle_no + 1].trees[0])` raises IndexError in the last bundle. -/
def resegment : List (List Str) → List (List Str) → Except RErr (List (List Str))
  | [], _ => .ok []
  | _ :: _, [] => .error .indexError
  | g :: gs, p :: ps =>
    if chars zs g = chars zs p then (resegment gs ps).map (p :: ·)
    else
      match grow zs (chars zs g) p ps with
      | .error e => .error e
      | .ok (p', ps') =>
        if ¬ (chars zs g) <+: chars zs p' then .error .valueError
        else if chars zs g = chars zs p' then (resegment gs ps').map (p' :: ·)
        else
          match cut zs (chars zs g).length [] [] p' with
          | .never => .error .valueError
          | .cross left rest => (resegment gs ([rest] :: ps')).map (left :: ·)
          | .after left right =>
            if right = [] ∨ gs = [] then .error .indexError else (resegment gs (right :: ps')).map (left :: ·)

/-! ## Lemmas -/

variable {zs}

theorem strip_append (s t : Str) : strip zs (s ++ t) = strip zs s ++ strip zs t := by
  simp [strip]

theorem strip_strip (s : Str) : strip zs (strip zs s) = strip zs s := by
  simp [strip]

theorem strip_of_sublist {s t : Str} (h : s.Sublist (strip zs t)) : strip zs s = s := by
  unfold strip
  rw [List.filter_eq_self]
  intro c hc
  have := h.subset hc
  exact (List.mem_filter.1 this).2

theorem chars_append (xs ys : List Str) : chars zs (xs ++ ys) = chars zs xs ++ chars zs ys := by
  simp [chars, strip_append]

theorem chars_cons (t : Str) (xs : List Str) : chars zs (t :: xs) = strip zs t ++ chars zs xs := by
  simp [chars, strip_append]

theorem chars_nil : chars zs [] = [] := rfl

theorem chars_flatten : ∀ ps : List (List Str), chars zs ps.flatten = (ps.map (chars zs)).flatten
  | [] => rfl
  | p :: ps => by rw [List.flatten_cons, chars_append, chars_flatten ps]; simp

/-- Every token has a character other than a space. -/
def Solid (zs : Char → Bool) (ts : List Str) : Prop := ∀ t ∈ ts, strip zs t ≠ []

theorem solid_len {ts : List Str} (h : Solid zs ts) (hn : ts ≠ []) : 0 < (chars zs ts).length := by
  cases ts with
  | nil => exact absurd rfl hn
  | cons t ts =>
    rw [chars_cons, List.length_append]
    have := List.length_pos_iff.2 (h t (by simp))
    omega

theorem prefix_cases {α : Type} {xs ys a b : List α} (h : xs ++ a = ys ++ b) : (∃ z, ys = xs ++ z ∧ a = z ++ b) ∨ ∃ z, xs = ys ++ z ∧ b = z ++ a := by
  rcases List.append_eq_append_iff.1 h with ⟨z, h1, h2⟩ | ⟨z, h1, h2⟩
  · exact Or.inl ⟨z, h1, h2⟩
  · exact Or.inr ⟨z, h1, h2⟩

theorem prefix_unique {xs ys a b : List Str} (h : xs ++ a = ys ++ b) (hs : Solid zs (xs ++ a))
    (hl : (chars zs xs).length = (chars zs ys).length) : xs = ys ∧ a = b := by
  rcases prefix_cases h with ⟨z, h1, h2⟩ | ⟨z, h1, h2⟩
  · have hz : z = [] := by
      refine Classical.byContradiction (fun hz => ?_)
      have := solid_len (zs := zs) (ts := z) (fun t ht => hs t (by rw [h2]; simp [ht])) hz
      rw [h1, chars_append, List.length_append] at hl
      omega
    subst hz
    simp at h1 h2
    exact ⟨h1.symm, h2⟩
  · have hz : z = [] := by
      refine Classical.byContradiction (fun hz => ?_)
      have := solid_len (zs := zs) (ts := z) (fun t ht => hs t (by rw [h1]; simp [ht])) hz
      rw [h1, chars_append, List.length_append] at hl
      omega
    subst hz
    simp at h1 h2
    exact ⟨h1, h2.symm⟩

theorem prefix_longer {xs ys a b : List Str} (h : xs ++ a = ys ++ b)
    (hl : (chars zs xs).length < (chars zs ys).length) : ∃ z, z ≠ [] ∧ ys = xs ++ z ∧ a = z ++ b := by
  rcases prefix_cases h with ⟨z, h1, h2⟩ | ⟨z, h1, h2⟩
  · refine ⟨z, ?_, h1, h2⟩
    rintro rfl
    rw [List.append_nil] at h1
    rw [h1] at hl
    omega
  · rw [h1, chars_append, List.length_append] at hl
    omega

/-- `grow` takes whole trees from the stack. -/
theorem grow_ok {g : Str} : ∀ {ps : List (List Str)} {p p' : List Str} {ps' : List (List Str)},
    grow zs g p ps = .ok (p', ps') →
    p' ++ ps'.flatten = p ++ ps.flatten ∧ g.length ≤ (chars zs p').length ∧ ∀ q ∈ ps', q ∈ ps
  | [], p, p', ps', h => by
    unfold grow at h
    split at h
    · cases h
    · next hl =>
      injection h with h
      injection h with h1 h2
      subst h1; subst h2
      exact ⟨rfl, by omega, fun q hq => hq⟩
  | q :: qs, p, p', ps', h => by
    unfold grow at h
    split at h
    · split at h
      · cases h
      · obtain ⟨h1, h2, h3⟩ := grow_ok h
        exact ⟨by rw [h1]; simp, h2, fun q hq => List.mem_cons_of_mem _ (h3 q hq)⟩
    · next hl =>
      injection h with h
      injection h with h1 h2
      subst h1; subst h2
      exact ⟨rfl, by omega, fun q hq => hq⟩

theorem grow_exists {g : Str} : ∀ {ps : List (List Str)} {p : List Str}, (∀ q ∈ ps, q ≠ []) →
    g.length ≤ (chars zs (p ++ ps.flatten)).length → ∃ r, grow zs g p ps = .ok r
  | [], p, _, h => by
    unfold grow
    rw [if_neg (by simpa using h)]
    exact ⟨_, rfl⟩
  | q :: qs, p, hq, h => by
    unfold grow
    split
    · rw [if_neg (hq q (by simp))]
      exact grow_exists (fun q h => hq q (by simp [h])) (by simpa using h)
    · exact ⟨_, rfl⟩

/-- The cut behind a token that ends with the gold sentence. -/
theorem cut_exact {n : Nat} : ∀ {xs : List Str} {acc : Str} {done right : List Str}, Solid zs xs → xs ≠ [] →
    acc.length + (chars zs xs).length = n → cut zs n acc done (xs ++ right) = .after (done ++ xs) right
  | [], _, _, _, _, h, _ => absurd rfl h
  | x :: xs, acc, done, right, hs, _, hn => by
    rw [List.cons_append]
    unfold cut
    rw [chars_cons, List.length_append] at hn
    simp only [List.length_append]
    rw [if_neg (by omega)]
    by_cases hx : xs = []
    · subst hx
      rw [chars_nil] at hn
      rw [if_pos (by simpa using hn)]
      simp
    · have := solid_len (zs := zs) (ts := xs) (fun t ht => hs t (by simp [ht])) hx
      rw [if_neg (by omega)]
      rw [cut_exact (fun t ht => hs t (by simp [ht])) hx (by rw [List.length_append]; omega)]
      simp

/-- Whatever the cut is, the gold sentence is a prefix of the left part and the right part begins where the sentence ends. -/
theorem cut_stream {n : Nat} : ∀ {xs : List Str} {acc : Str} {done : List Str}, acc = chars zs done → acc.length ≤ n →
    n < (chars zs (done ++ xs)).length →
    (∃ l r, cut zs n acc done xs = .after l r ∧ n ≤ (chars zs l).length ∧ (∃ m, l ++ m = done ++ xs) ∧
      chars zs r = (chars zs (done ++ xs)).drop n) ∨
    (∃ l r, cut zs n acc done xs = .cross l r ∧ n ≤ (chars zs l).length ∧ l = done ++ xs ∧
      strip zs r = (chars zs (done ++ xs)).drop n)
  | [], acc, done, h, hl, hn => by
    rw [List.append_nil, ← h] at hn
    omega
  | x :: xs, acc, done, h, hl, hn => by
    have e : acc ++ strip zs x = chars zs (done ++ [x]) := by rw [chars_append, chars_cons, chars_nil, h]; simp
    have e2 : done ++ x :: xs = (done ++ [x]) ++ xs := by simp
    unfold cut
    simp only [e]
    split
    · next hlt =>
      have hd : (chars zs (done ++ [x])).drop n ++ chars zs xs = (chars zs (done ++ x :: xs)).drop n := by
        rw [e2, chars_append (done ++ [x]), List.drop_append_of_le_length (by omega)]
      have hst : strip zs ((chars zs (done ++ [x])).drop n) = (chars zs (done ++ [x])).drop n :=
        strip_of_sublist (t := (done ++ [x]).flatten) (List.drop_sublist _ _)
      cases xs with
      | nil =>
        refine Or.inr ⟨_, _, rfl, by omega, rfl, ?_⟩
        rw [hst]
      | cons u us =>
        refine Or.inl ⟨_, _, rfl, by omega, ⟨u :: us, by simp⟩, ?_⟩
        rw [← hd, chars_cons, chars_cons, strip_append, hst, List.append_assoc]
    · next hge =>
      split
      · next heq =>
        refine Or.inl ⟨_, _, rfl, by omega, ⟨xs, by simp⟩, ?_⟩
        rw [e2, chars_append (done ++ [x]), ← heq, List.drop_left]
      · next hne =>
        have := cut_stream (n := n) (xs := xs) (acc := chars zs (done ++ [x])) (done := done ++ [x]) rfl (by omega) (by rw [← e2]; exact hn)
        rw [e2]
        exact this

/-! ## Theorems -/

/-- C118: if the tokens of the pred zone can be divided so that each part has the characters of its gold sentence, the pred
trees are afterwards exactly these parts. -/
theorem C118_resegment_partial : ∀ (golds parts preds : List (List Str)), golds.map (chars zs) = parts.map (chars zs) →
    parts.flatten = preds.flatten → Solid zs preds.flatten → (∀ p ∈ preds, p ≠ []) → (∀ p ∈ parts, p ≠ []) →
    resegment zs golds preds = .ok parts
  | [], parts, _, hg, _, _, _, _ => by
    have : parts = [] := by simpa using hg.symm
    subst this
    rfl
  | g :: gs, [], _, hg, _, _, _, _ => by simp at hg
  | g :: gs, part :: parts, [], _, hf, _, _, hp => by
    have : part = [] := by
      have := congrArg List.length hf
      simp only [List.flatten_cons, List.length_append, List.flatten_nil, List.length_nil] at this
      exact List.eq_nil_of_length_eq_zero (by omega)
    exact absurd this (hp part (by simp))
  | g :: gs, part :: parts, p :: ps, hg, hf, hs, hne, hp => by
    rw [List.map_cons, List.map_cons, List.cons.injEq] at hg
    obtain ⟨hg1, hg2⟩ := hg
    rw [List.flatten_cons, List.flatten_cons] at hf
    have hp' : ∀ q ∈ parts, q ≠ [] := fun q hq => hp q (by simp [hq])
    rw [List.flatten_cons] at hs
    unfold resegment
    by_cases h1 : chars zs g = chars zs p
    · rw [if_pos h1]
      obtain ⟨rfl, e⟩ := prefix_unique (zs := zs) hf (by rw [hf]; exact hs) (by rw [← hg1, h1])
      rw [C118_resegment_partial gs parts ps hg2 e (fun t ht => hs t (by simp [ht])) (fun q hq => hne q (by simp [hq])) hp']
      rfl
    · rw [if_neg h1]
      have hlen : (chars zs g).length ≤ (chars zs (p ++ ps.flatten)).length := by
        rw [hg1, ← hf, chars_append, List.length_append]
        omega
      obtain ⟨⟨p', ps'⟩, hgr⟩ := grow_exists (p := p) (fun q hq => hne q (by simp [hq])) hlen
      rw [hgr]
      obtain ⟨s1, s2, s3⟩ := grow_ok hgr
      have hf' : part ++ parts.flatten = p' ++ ps'.flatten := by rw [s1, hf]
      have hs' : Solid zs (part ++ parts.flatten) := by rw [hf]; exact hs
      have hpre : chars zs g <+: chars zs p' := by
        rw [hg1]
        rcases Nat.lt_or_ge (chars zs part).length (chars zs p').length with hlt | hge
        · obtain ⟨z, _, hz, _⟩ := prefix_longer hf' hlt
          rw [hz, chars_append]
          exact List.prefix_append ..
        · obtain ⟨e, _⟩ := prefix_unique hf' hs' (by rw [hg1] at s2; omega)
          rw [e]
          exact List.prefix_rfl
      simp only [hpre, not_true_eq_false, if_false]
      by_cases h2 : chars zs g = chars zs p'
      · rw [if_pos h2]
        obtain ⟨rfl, e⟩ := prefix_unique hf' hs' (by rw [← hg1, h2])
        rw [C118_resegment_partial gs parts ps' hg2 e (fun t ht => hs' t (by rw [e]; simp [ht]))
          (fun q hq => hne q (by simp [s3 q hq])) hp']
        rfl
      · rw [if_neg h2]
        have hlt : (chars zs part).length < (chars zs p').length := by
          have h3 := hpre.length_le
          rcases Nat.lt_or_ge (chars zs g).length (chars zs p').length with h4 | h4
          · rw [← hg1]; exact h4
          · exact absurd (hpre.eq_of_length_le h4) h2
        obtain ⟨z, hz, e1, e2⟩ := prefix_longer hf' hlt
        have hc : cut zs (chars zs g).length [] [] p' = .after part z := by
          rw [e1, cut_exact (fun t ht => hs' t (by simp [ht])) (hp part (by simp)) (by rw [hg1]; simp)]
          simp
        rw [hc]
        have hgs : gs ≠ [] := by
          rintro rfl
          have : parts = [] := by simpa using hg2.symm
          subst this
          simp at e2
          exact hz e2.1
        simp only [hz, hgs, or_self, if_false]
        rw [C118_resegment_partial gs parts (z :: ps') hg2 (by rw [List.flatten_cons]; exact e2)
          (fun t ht => hs' t (by rw [e2]; rw [List.flatten_cons] at ht; simp only [List.mem_append] at ht ⊢; exact Or.inr ht))
          (fun q hq => by
            rcases List.mem_cons.1 hq with rfl | hq
            · exact hz
            · exact hne q (by simp [s3 q hq])) hp']
        rfl

theorem map_ok {x : Except RErr (List (List Str))} {p : List Str} {out : List (List Str)} (h : x.map (p :: ·) = .ok out) :
    ∃ o, x = .ok o ∧ out = p :: o := by
  cases x with
  | error e => cases h
  | ok o => exact ⟨o, rfl, by injection h with h; exact h.symm⟩

/-- C118: whenever the block succeeds, there is one pred tree for each gold tree, its characters begin with those of the gold
tree, and the characters of the whole pred zone begin with those of the gold zone. -/
theorem C118_prefix : ∀ (golds preds out : List (List Str)), resegment zs golds preds = .ok out →
    out.length = golds.length ∧ (∀ x ∈ golds.zip out, chars zs x.1 <+: chars zs x.2) ∧
    chars zs golds.flatten <+: chars zs preds.flatten
  | [], preds, out, h => by
    unfold resegment at h
    injection h with h
    subst h
    exact ⟨rfl, by simp, by simp [chars, strip]⟩
  | g :: gs, [], out, h => by cases h
  | g :: gs, p :: ps, out, h => by
    unfold resegment at h
    split at h
    · next e =>
      obtain ⟨o, ho, rfl⟩ := map_ok h
      obtain ⟨r1, r2, r3⟩ := C118_prefix gs ps o ho
      refine ⟨by simp [r1], ?_, ?_⟩
      · intro x hx
        rw [List.zip_cons_cons, List.mem_cons] at hx
        rcases hx with rfl | hx
        · simp only [e]; exact List.prefix_rfl
        · exact r2 x hx
      · rw [List.flatten_cons, List.flatten_cons, chars_append, chars_append, e]
        exact (List.prefix_append_right_inj _).2 r3
    · split at h
      · cases h
      · next p' ps' hgr =>
        obtain ⟨s1, s2, _⟩ := grow_ok hgr
        split at h
        · cases h
        · next hpre =>
          have hpre : chars zs g <+: chars zs p' := Classical.not_not.1 hpre
          -- the rest of the characters of the zone
          have fin : ∀ (left : List Str) (rest : List (List Str)) (o : List (List Str)), resegment zs gs rest = .ok o →
              out = left :: o → chars zs g <+: chars zs left →
              chars zs p' ++ chars zs ps'.flatten = chars zs g ++ chars zs rest.flatten →
              out.length = (g :: gs).length ∧ (∀ x ∈ (g :: gs).zip out, chars zs x.1 <+: chars zs x.2) ∧
                chars zs (g :: gs).flatten <+: chars zs (p :: ps).flatten := by
            intro left rest o ho e hl hst
            subst e
            obtain ⟨r1, r2, r3⟩ := C118_prefix gs rest o ho
            refine ⟨by simp [r1], ?_, ?_⟩
            · intro x hx
              rw [List.zip_cons_cons, List.mem_cons] at hx
              rcases hx with rfl | hx
              · exact hl
              · exact r2 x hx
            · rw [List.flatten_cons, List.flatten_cons, ← s1, chars_append, chars_append, hst]
              exact (List.prefix_append_right_inj _).2 r3
          split at h
          · next e =>
            obtain ⟨o, ho, e2⟩ := map_ok h
            exact fin p' ps' o ho e2 hpre (by rw [e])
          · next hne =>
            have hlt : (chars zs g).length < (chars zs p').length := by
              rcases Nat.lt_or_ge (chars zs g).length (chars zs p').length with h4 | h4
              · exact h4
              · exact absurd (hpre.eq_of_length_le h4) hne
            have cs := cut_stream (zs := zs) (n := (chars zs g).length) (xs := p') (acc := []) (done := []) rfl (Nat.zero_le _)
              (by simpa using hlt)
            have key : ∀ l m : List Str, l ++ m = p' → (chars zs g).length ≤ (chars zs l).length → chars zs g <+: chars zs l := by
              intro l m e hl
              refine List.prefix_of_prefix_length_le hpre ?_ hl
              rw [← e, chars_append]
              exact List.prefix_append ..
            have hst : chars zs p' = chars zs g ++ (chars zs p').drop (chars zs g).length := by
              obtain ⟨t, ht⟩ := hpre
              rw [← ht]
              simp
            simp only [List.nil_append] at cs
            rcases cs with ⟨l, r, hc, hl, ⟨m, hm⟩, hr⟩ | ⟨l, r, hc, hl, rfl, hr⟩
            · rw [hc] at h
              simp only at h
              split at h
              · cases h
              · obtain ⟨o, ho, e2⟩ := map_ok h
                refine fin l (r :: ps') o ho e2 (key l m hm hl) ?_
                rw [List.flatten_cons, chars_append, hr, ← List.append_assoc, ← hst]
            · rw [hc] at h
              simp only at h
              obtain ⟨o, ho, e2⟩ := map_ok h
              refine fin l ([r] :: ps') o ho e2 hpre ?_
              rw [List.flatten_cons, chars_append, chars_cons, chars_nil, List.append_nil, hr, ← List.append_assoc, ← hst]

/-- C118: a token across the end of a gold sentence stays whole in the first tree, and its end is repeated at the beginning of
the second tree, so that neither has the characters of its gold sentence. -/
theorem C118_crossing_violated (x y z : Str) (hx : strip zs x ≠ []) (hy : strip zs y ≠ []) :
    resegment zs [[x], [y ++ z]] [[x ++ y, z]] = .ok [[x ++ y], [strip zs y ++ z]] ∧ chars zs [x ++ y] ≠ chars zs [x] := by
  have h0 : ∀ s : Str, chars zs [s] = strip zs s := fun s => by simp [chars]
  have lx := List.length_pos_iff.2 hx
  have ly := List.length_pos_iff.2 hy
  have hne : chars zs [x ++ y] ≠ chars zs [x] := by
    rw [h0, h0, strip_append]
    intro e
    have := congrArg List.length e
    rw [List.length_append] at this
    omega
  refine ⟨?_, hne⟩
  have hp : chars zs [x ++ y, z] = strip zs x ++ (strip zs y ++ strip zs z) := by
    rw [chars_cons, h0, strip_append, List.append_assoc]
  have hgrow : grow zs (chars zs [x]) [x ++ y, z] [] = .ok ([x ++ y, z], []) := by
    unfold grow
    rw [if_neg]
    rw [hp, h0]
    simp
  have hcut : cut zs (chars zs [x]).length [] [] [x ++ y, z] = .after [x ++ y] [strip zs y ++ z] := by
    unfold cut
    rw [h0, strip_append]
    simp only [List.nil_append, List.length_append]
    rw [if_pos (by omega)]
    simp
  have hlast : resegment zs [[y ++ z]] [[strip zs y ++ z]] = .ok [[strip zs y ++ z]] := by
    unfold resegment
    rw [if_pos (by rw [h0, h0, strip_append, strip_append, strip_strip])]
    rfl
  have hdiff : chars zs [x] ≠ chars zs [x ++ y, z] := by
    rw [hp, h0]
    intro e
    have := congrArg List.length e
    simp only [List.length_append] at this
    omega
  unfold resegment
  rw [if_neg hdiff, hgrow]
  have hpre : chars zs [x] <+: chars zs [x ++ y, z] := by
    rw [hp, h0]
    exact List.prefix_append ..
  simp only [hpre, not_true_eq_false, if_false, hdiff, hcut]
  rw [if_neg (by simp), hlast]
  rfl

/-- C118: whole pred trees beyond the gold zone are lost without an exception, although "the two zones must contain the same
sequence of characters". -/
theorem C118_surplus_violated (golds extra : List (List Str)) : resegment zs golds (golds ++ extra) = .ok golds := by
  induction golds with
  | nil => rfl
  | cons g gs ih =>
    rw [List.cons_append]
    unfold resegment
    rw [if_pos rfl, ih]
    rfl

/-- C118: surplus tokens in the last pred tree raise IndexError. -/
theorem C118_index_violated (g more : List Str) (hs : Solid zs g) (hm : Solid zs more) (hg : g ≠ []) (hn : more ≠ []) :
    resegment zs [g] [g ++ more] = .error .indexError := by
  have l1 := solid_len hs hg
  have l2 := solid_len hm hn
  have hdiff : chars zs g ≠ chars zs (g ++ more) := by
    rw [chars_append]
    intro e
    have := congrArg List.length e
    rw [List.length_append] at this
    omega
  have hgrow : grow zs (chars zs g) (g ++ more) [] = .ok (g ++ more, []) := by
    unfold grow
    rw [if_neg]
    rw [chars_append, List.length_append]
    omega
  have hpre : chars zs g <+: chars zs (g ++ more) := by
    rw [chars_append]
    exact List.prefix_append ..
  unfold resegment
  rw [if_neg hdiff, hgrow]
  simp only [hpre, not_true_eq_false, if_false, hdiff]
  rw [cut_exact hs hg (by simp)]
  simp

/-! ## Examples -/

/-- A space -/
def isSp (c : Char) : Bool := c == ' '

example : resegment isSp [[['a', 'b']], [['c'], ['d', 'e']]] [[['a']], [['b'], ['c']], [['d', ' ', 'e']]] =
    .ok [[['a'], ['b']], [['c'], ['d', ' ', 'e']]] := by
  refine C118_resegment_partial _ _ _ rfl rfl ?_ ?_ ?_ <;> simp [Solid, strip, isSp]

example : resegment isSp [[['a', 'b']], [['c', 'd']]] [[['a', 'b', 'c'], ['d']]] = .ok [[['a', 'b', 'c']], [['c', 'd']]] := by
  rfl

example : resegment isSp [[['a', 'b']], [['c']]] [[['a', 'b', 'c']]] = .ok [[['a', 'b', 'c']], [['c']]] := by rfl

example : resegment isSp [[['a', 'b']]] [[['a']]] = .error .valueError := by rfl

example : resegment isSp [[['a']]] [[['a'], ['b']]] = .error .indexError := by rfl

example : resegment isSp [[['a']]] [[['a']], [['b']]] = .ok [[['a']]] := by rfl

end Verif.Blocks.Reseg
