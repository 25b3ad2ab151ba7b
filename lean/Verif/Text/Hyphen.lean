import Verif.Py.Str

/-!
# Properties C207 and C208: ud.pt.AddHyphenMwt

Source: `udapi/block/ud/pt/addhyphenmwt.py`. `hy t` says that the form of the token is "-" and `ok t` is `_ok(t)` (lines 9-11: alphanumeric and not "al"). A hyphen is not
alphanumeric, so no token is both; the theorems take that as a hypothesis on `hy` and `ok`.

C207 is about which tokens form a compound (the two loops, lines 14-20); C208 about what happens to the words of one compound (lines 21-36). Not modelled: the value of the
multiword token's form, `SpaceAfter`, `root.text`, and a hyphen that is itself a multiword token.
-/

namespace Verif.Text.Hyphen
open Verif.Py

/-! ## Which tokens form a compound -/

section Scan
variable {α : Type} (hy ok : α → Bool)

/-- The inner loop (lines 18-19), at the hyphen `h` followed by `b`: the further tokens of the compound, and the tokens from the last hyphen on. -/
def chain (h b : α) : List α → List α × List α
  | h' :: b' :: rest =>
    if hy h' && ok b' then (h' :: b' :: (chain h' b' rest).1, (chain h' b' rest).2) else ([], h :: b :: h' :: b' :: rest)
  | rest => ([], h :: b :: rest)

theorem chain_length : ∀ (rest : List α) (h b : α), (chain hy ok h b rest).2.length ≤ rest.length + 2
  | [], h, b => by simp [chain]
  | [x], h, b => by simp [chain]
  | h' :: b' :: rest, h, b => by
    have := chain_length rest h' b'
    simp only [chain]
    split
    · simp only [List.length_cons]; omega
    · simp

/-- The outer loop (lines 15-37); `n` is the position of `tokens[i-1]`. After a compound `i` is one after the last hyphen, so `tokens[i-1]` is that hyphen. -/
def scan (n : Nat) : List α → List (Nat × List α)
  | a :: h :: b :: rest =>
    if hy h && ok a && ok b then
      (n, a :: h :: b :: (chain hy ok h b rest).1) :: scan (n + 1 + (chain hy ok h b rest).1.length) (chain hy ok h b rest).2
    else scan (n + 1) (h :: b :: rest)
  | _ => []
termination_by l => l.length
decreasing_by
  · have := chain_length hy ok rest h b
    simp only [List.length_cons]; omega
  · simp

/-- Lines 14-20: the compounds of a tree, each with the position of its first token. -/
def compounds (tokens : List α) : List (Nat × List α) := scan hy ok 0 tokens

/-- A compound: an acceptable token, then one or more times a hyphen and an acceptable token. -/
inductive Compound : List α → Prop
  | two {a h b : α} : ok a = true → hy h = true → ok b = true → Compound [a, h, b]
  | more {a h : α} {c : List α} : ok a = true → hy h = true → Compound c → Compound (a :: h :: c)

/-- What follows does not continue a compound. -/
def Stops : List α → Prop
  | h :: b :: _ => ¬(hy h = true ∧ ok b = true)
  | _ => True

theorem chain_spec : ∀ (rest : List α) (h b : α), hy h = true → ok b = true → ∃ (pre post : List α) (h' b' : α),
    h :: b :: (chain hy ok h b rest).1 = pre ++ [h', b'] ∧ (chain hy ok h b rest).2 = h' :: b' :: post ∧ hy h' = true ∧ ok b' = true ∧
    h :: b :: rest = pre ++ h' :: b' :: post ∧ Stops hy ok post ∧ ∀ (a : α), ok a = true → Compound hy ok (a :: h :: b :: (chain hy ok h b rest).1)
  | [], h, b, hh, hb => ⟨[], [], h, b, by simp [chain], by simp [chain], hh, hb, by simp, trivial, fun a ha => by simpa [chain] using Compound.two ha hh hb⟩
  | [x], h, b, hh, hb => ⟨[], [x], h, b, by simp [chain], by simp [chain], hh, hb, by simp, trivial, fun a ha => by simpa [chain] using Compound.two ha hh hb⟩
  | h₁ :: b₁ :: rest, h, b, hh, hb => by
    by_cases hc : (hy h₁ && ok b₁) = true
    · have hc' := hc
      simp only [Bool.and_eq_true] at hc'
      obtain ⟨pre, post, h', b', e1, e2, x1, x2, e3, st, co⟩ := chain_spec rest h₁ b₁ hc'.1 hc'.2
      refine ⟨h :: b :: pre, post, h', b', ?_, ?_, x1, x2, ?_, st, ?_⟩
      · simp only [chain, if_pos hc, List.cons_append]; rw [e1]
      · simp only [chain, if_pos hc]; exact e2
      · simp only [List.cons_append]; rw [e3]
      · intro a ha
        simp only [chain, if_pos hc]
        exact .more ha hh (co b hb)
    · refine ⟨[], h₁ :: b₁ :: rest, h, b, ?_, ?_, hh, hb, rfl, ?_, ?_⟩
      · simp only [chain, if_neg hc]; rfl
      · simp only [chain, if_neg hc]
      · simpa [Stops] using hc
      · intro a ha
        simp only [chain, if_neg hc]
        exact .two ha hh hb

theorem Compound.begins {c : List α} (h : Compound hy ok c) :
    ∃ (a h b : α) (t : List α), c = a :: h :: b :: t ∧ ok a = true ∧ hy h = true ∧ ok b = true := by
  cases h with
  | two h1 h2 h3 => exact ⟨_, _, _, [], rfl, h1, h2, h3⟩
  | more h1 h2 h3 =>
    cases h3 with
    | two g1 g2 g3 => exact ⟨_, _, _, _, rfl, h1, h2, g1⟩
    | more g1 g2 g3 => exact ⟨_, _, _, _, rfl, h1, h2, g1⟩

/-- What precedes does not continue a compound to the left. -/
def StartsAfter (pre : List α) : Prop := ∀ (q : List α) (x y : α), pre = q ++ [x, y] → ¬(ok x = true ∧ hy y = true)

theorem chain_first_length {rest : List α} {h b : α} {pre : List α} {h' b' : α}
    (e : h :: b :: (chain hy ok h b rest).1 = pre ++ [h', b']) : (chain hy ok h b rest).1.length = pre.length := by
  have := congrArg List.length e
  simp at this
  exact this

/-- Behind a compound nothing starts at its last hyphen or at its last token. -/
theorem after_compound (excl : ∀ t, hy t = true → ok t = false) {h' b' : α} {post : List α} (hh : hy h' = true) (st : Stops hy ok post)
    {pre c post' : List α} (e : h' :: b' :: post = pre ++ c ++ post') (hc : Compound hy ok c) :
    ∃ (q : List α), pre = h' :: b' :: q := by
  obtain ⟨a, h, b, t, rfl, ha, hhy, hb⟩ := hc.begins
  match pre, e with
  | [], e =>
    simp only [List.nil_append, List.cons_append, List.cons.injEq] at e
    rw [← e.1, excl _ hh] at ha; cases ha
  | [y], e =>
    simp only [List.nil_append, List.cons_append, List.cons.injEq] at e
    rw [e.2.2] at st
    exact absurd ⟨hhy, hb⟩ st
  | x :: y :: q, e =>
    simp only [List.cons_append, List.cons.injEq] at e
    exact ⟨q, by rw [e.1, e.2.1]⟩

theorem scan_sound (excl : ∀ t, hy t = true → ok t = false) : ∀ (k n : Nat) (l : List α), l.length ≤ k → ∀ x ∈ scan hy ok n l,
    ∃ (pre post : List α), l = pre ++ x.2 ++ post ∧ x.1 = n + pre.length ∧ Compound hy ok x.2 ∧ Stops hy ok post ∧ StartsAfter hy ok pre := by
  intro k
  induction k with
  | zero =>
    intro n l hl x hx
    cases l with
    | nil => simp [scan] at hx
    | cons _ _ => simp at hl
  | succ k ih =>
    intro n l hl x hx
    match l, hl, hx with
    | [], _, hx => simp [scan] at hx
    | [_], _, hx => simp [scan] at hx
    | [_, _], _, hx => simp [scan] at hx
    | a :: h :: b :: rest, hl, hx =>
      rw [scan] at hx
      by_cases hc : (hy h && ok a && ok b) = true
      · rw [if_pos hc] at hx
        simp only [Bool.and_eq_true] at hc
        obtain ⟨pre, post, h', b', e1, e2, x1, x2, e3, st, co⟩ := chain_spec hy ok rest h b hc.1.1 hc.2
        have hlen := chain_first_length hy ok e1
        rcases List.mem_cons.mp hx with rfl | hx
        · refine ⟨[], post, ?_, by simp, co a hc.1.2, st, ?_⟩
          · simp only [List.nil_append, List.cons_append]
            rw [show h :: b :: rest = pre ++ [h', b'] ++ post by rw [e3]; simp, ← e1]
            simp
          · intro q x y hq; simp at hq
        · have hl2 : (chain hy ok h b rest).2.length ≤ k := by
            have := chain_length hy ok rest h b
            simp only [List.length_cons] at hl; omega
          obtain ⟨pre', post', g1, g2, g3, g4, g5⟩ := ih _ _ hl2 x hx
          rw [e2] at g1
          obtain ⟨q, hq⟩ := after_compound hy ok excl x1 st g1 g3
          refine ⟨a :: pre ++ pre', post', ?_, ?_, g3, g4, ?_⟩
          · simp only [List.cons_append]
            rw [e3, g1]; simp
          · rw [g2, hlen]; simp; omega
          · intro r u v hr
            obtain ⟨r', u', v', hr'⟩ : ∃ (r' : List α) (u' v' : α), pre' = r' ++ [u', v'] := by
              rw [hq]
              match hrev : (h' :: b' :: q).reverse, (by simp : (h' :: b' :: q).reverse.length = q.length + 2) with
              | v' :: u' :: r', _ => exact ⟨r'.reverse, u', v', by rw [← List.reverse_reverse (h' :: b' :: q), hrev]; simp⟩
              | [], hh => simp at hh
              | [_], hh => simp at hh
            have := hr
            rw [hr', ← List.append_assoc] at this
            have h2 := List.append_inj' this rfl
            simp only [List.cons.injEq, and_true] at h2
            rw [← h2.2.1, ← h2.2.2]
            exact g5 _ _ _ hr'
      · rw [if_neg hc] at hx
        obtain ⟨pre', post', g1, g2, g3, g4, g5⟩ := ih (n + 1) (h :: b :: rest) (by simp only [List.length_cons] at hl ⊢; omega) x hx
        refine ⟨a :: pre', post', by rw [g1]; simp, by rw [g2]; simp; omega, g3, g4, ?_⟩
        intro r u v hr
        match r, hr with
        | [], hr =>
          simp only [List.nil_append, List.cons.injEq] at hr
          obtain ⟨a', h2, b2, t, e, ha', _, _⟩ := g3.begins
          rw [hr.2, e] at g1
          simp only [List.cons_append, List.nil_append, List.cons.injEq] at g1
          rintro ⟨hu, hv⟩
          apply hc
          rw [hr.1, g1.1, g1.2.1, hu, hv, ha']; rfl
        | r0 :: r, hr =>
          simp only [List.cons_append, List.cons.injEq] at hr
          exact g5 _ _ _ hr.2

theorem scan_complete : ∀ (k n : Nat) (l : List α), l.length ≤ k → ∀ (q r : List α) (a h b : α), l = q ++ a :: h :: b :: r →
    ok a = true → hy h = true → ok b = true → ∃ x ∈ scan hy ok n l, x.1 ≤ n + q.length ∧ n + q.length + 3 ≤ x.1 + x.2.length := by
  intro k
  induction k with
  | zero => intro n l hl q r a h b e; rw [e] at hl; simp at hl
  | succ k ih =>
    intro n l hl q r a h b e ha hh hb
    match l, hl, e with
    | [], _, e => have := congrArg List.length e; simp at this
    | [_], _, e => have := congrArg List.length e; simp at this; omega
    | [_, _], _, e => have := congrArg List.length e; simp at this; omega
    | a₀ :: h₀ :: b₀ :: rest, hl, e =>
      rw [scan]
      by_cases hc : (hy h₀ && ok a₀ && ok b₀) = true
      · rw [if_pos hc]
        simp only [Bool.and_eq_true] at hc
        obtain ⟨pre, post, h', b', e1, e2, x1, x2, e3, st, co⟩ := chain_spec hy ok rest h₀ b₀ hc.1.1 hc.2
        have hlen := chain_first_length hy ok e1
        by_cases hq : q.length ≤ pre.length
        · exact ⟨_, List.mem_cons_self .., by simp, by simp only [List.length_cons, hlen]; omega⟩
        · have hl2 : (chain hy ok h₀ b₀ rest).2.length ≤ k := by
            have := chain_length hy ok rest h₀ b₀
            simp only [List.length_cons] at hl; omega
          have e' : (a₀ :: pre) ++ (h' :: b' :: post) = q ++ a :: h :: b :: r := by rw [← e, e3]; simp
          obtain ⟨q', hq'⟩ : ∃ q', q = (a₀ :: pre) ++ q' := by
            rcases List.append_eq_append_iff.mp e' with ⟨q', g, _⟩ | ⟨q', g, _⟩
            · exact ⟨q', g⟩
            · have hg := congrArg List.length g
              simp at hg
              have : q' = [] := List.eq_nil_of_length_eq_zero (by omega)
              exact ⟨[], by rw [g, this]; simp⟩
          rw [hq', List.append_assoc] at e'
          have e'' := List.append_cancel_left e'
          obtain ⟨x, hx, g1, g2⟩ := ih (n + 1 + (chain hy ok h₀ b₀ rest).1.length) _ hl2 q' r a h b (by rw [e2]; exact e'') ha hh hb
          refine ⟨x, List.mem_cons_of_mem _ hx, ?_, ?_⟩
          · rw [hq']; simp; rw [hlen] at g1; omega
          · rw [hq']; simp; rw [hlen] at g2; omega
      · rw [if_neg hc]
        match q, e with
        | [], e =>
          simp only [List.nil_append, List.cons.injEq] at e
          exact absurd (by rw [e.1, e.2.1, e.2.2.1, ha, hh, hb]; rfl) hc
        | q0 :: q, e =>
          simp only [List.cons_append, List.cons.injEq] at e
          obtain ⟨x, hx, g1, g2⟩ := ih (n + 1) (h₀ :: b₀ :: rest) (by simp only [List.length_cons] at hl ⊢; omega) q r a h b e.2 ha hh hb
          exact ⟨x, hx, by simp; omega, by simp; omega⟩

theorem scan_disjoint (excl : ∀ t, hy t = true → ok t = false) : ∀ (k n : Nat) (l : List α), l.length ≤ k →
    (scan hy ok n l).Pairwise (fun x y => x.1 + x.2.length ≤ y.1) := by
  intro k
  induction k with
  | zero =>
    intro n l hl
    cases l with
    | nil => rw [scan] <;> simp
    | cons _ _ => simp at hl
  | succ k ih =>
    intro n l hl
    match l, hl with
    | [], _ => rw [scan] <;> simp
    | [_], _ => rw [scan] <;> simp
    | [_, _], _ => rw [scan] <;> simp
    | a :: h :: b :: rest, hl =>
      rw [scan]
      by_cases hc : (hy h && ok a && ok b) = true
      · rw [if_pos hc]
        simp only [Bool.and_eq_true] at hc
        obtain ⟨pre, post, h', b', e1, e2, x1, x2, e3, st, co⟩ := chain_spec hy ok rest h b hc.1.1 hc.2
        have hl2 : (chain hy ok h b rest).2.length ≤ k := by
          have := chain_length hy ok rest h b
          simp only [List.length_cons] at hl; omega
        refine List.pairwise_cons.mpr ⟨?_, ih _ _ hl2⟩
        intro y hy'
        obtain ⟨pre', post', g1, g2, g3, _, _⟩ := scan_sound hy ok excl _ _ _ hl2 y hy'
        rw [e2] at g1
        obtain ⟨q, hq⟩ := after_compound hy ok excl x1 st g1 g3
        rw [g2, hq]; simp; omega
      · rw [if_neg hc]
        exact ih _ _ (by simp only [List.length_cons] at hl ⊢; omega)

end Scan

/-! ## C207 -/

/-- Every compound found is a stretch of the tokens at the position given, alternates acceptable tokens and hyphens, and cannot be continued to the right or to the left. -/
theorem C207_maximal {α : Type} (hy ok : α → Bool) (excl : ∀ t, hy t = true → ok t = false) (tokens : List α) (p : Nat) (c : List α)
    (h : (p, c) ∈ compounds hy ok tokens) : ∃ (pre post : List α), tokens = pre ++ c ++ post ∧ p = pre.length ∧ Compound hy ok c ∧
      (∀ (x y : α) (q : List α), post = x :: y :: q → ¬(hy x = true ∧ ok y = true)) ∧
      (∀ (q : List α) (x y : α), pre = q ++ [x, y] → ¬(ok x = true ∧ hy y = true)) := by
  obtain ⟨pre, post, h1, h2, h3, h4, h5⟩ := scan_sound hy ok excl _ 0 tokens (Nat.le_refl _) _ h
  refine ⟨pre, post, h1, by simpa using h2, h3, ?_, h5⟩
  intro x y q e
  rw [e] at h4
  exact h4

/-- Every hyphen between two acceptable tokens is in a compound together with both of them. -/
theorem C207_complete {α : Type} (hy ok : α → Bool) (q r : List α) (a h b : α) (ha : ok a = true) (hh : hy h = true) (hb : ok b = true) :
    ∃ x ∈ compounds hy ok (q ++ a :: h :: b :: r), x.1 ≤ q.length ∧ q.length + 3 ≤ x.1 + x.2.length := by
  obtain ⟨x, hx, h1, h2⟩ := scan_complete hy ok _ 0 _ (Nat.le_refl _) q r a h b rfl ha hh hb
  exact ⟨x, hx, by simpa using h1, by simpa using h2⟩

/-- The compounds come in the order of the sentence and no two of them share a token. -/
theorem C207_disjoint {α : Type} (hy ok : α → Bool) (excl : ∀ t, hy t = true → ok t = false) (tokens : List α) :
    (compounds hy ok tokens).Pairwise (fun x y => x.1 + x.2.length ≤ y.1) := scan_disjoint hy ok excl _ 0 tokens (Nat.le_refl _)

/-- In every compound the tokens at odd places, `compound[1::2]` (line 33), are the hyphens and the others are not. -/
theorem C207_places {α : Type} (hy ok : α → Bool) (excl : ∀ t, hy t = true → ok t = false) {c : List α} (h : Compound hy ok c) :
    ∀ (i : Nat) (t : α), c[i]? = some t → (hy t = true ↔ i % 2 = 1) := by
  have no : ∀ {t}, ok t = true → ¬ hy t = true := fun {t} h1 h2 => by rw [excl t h2] at h1; cases h1
  induction h with
  | two ha hh hb =>
    intro i t hi
    match i, hi with
    | 0, hi => simp at hi; subst hi; simpa using no ha
    | 1, hi => simp at hi; subst hi; simpa using hh
    | 2, hi => simp at hi; subst hi; simpa using no hb
    | i + 3, hi => simp at hi
  | more ha hh _ ih =>
    intro i t hi
    match i, hi with
    | 0, hi => simp at hi; subst hi; simpa using no ha
    | 1, hi => simp at hi; subst hi; simpa using hh
    | i + 2, hi =>
      simp at hi
      rw [ih i t hi]; omega

/-- "a-b-c x - y-z -": 1 is a hyphen, numbers from 10 on are acceptable. -/
example : compounds (fun n => n == 1) (fun n => decide (10 ≤ n)) [10, 1, 11, 1, 12, 2, 1, 13, 1, 14, 1] = [(0, [10, 1, 11, 1, 12]), (7, [13, 1, 14])] := by
  decide +kernel

/-! ## The words of one compound (lines 21-36)

A tree is the list `ns` of its words (numbers from 1 on; 0 is the technical root) with the parent of each. -/

/-- Line 23: the words of the compound that hang outside it. -/
def heads (par : Nat → Nat) (ws : List Nat) : List Nat := ws.filter fun w => !ws.contains (par w)

/-- Line 24: the other words of the compound that have a child outside it. -/
def cuckolds (par : Nat → Nat) (ns ws : List Nat) : List Nat :=
  ws.filter fun w => !(heads par ws).contains w && ns.any fun c => par c == w && !ws.contains c

/-- `w` is `h` or hangs below it; `fuel` bounds the number of steps. -/
def under (par : Nat → Nat) : Nat → Nat → Nat → Bool
  | 0, h, w => w == h
  | fuel + 1, h, w => w == h || under par fuel h (par w)

/-- `hyphen.remove()` for all hyphens (lines 33-34, `Node.remove` of `core/node.py` lines 508-551 without `children`): the word and all below it leave the tree. -/
def removeAll (par : Nat → Nat) (ns hs : List Nat) : List Nat := ns.filter fun w => !hs.any fun h => under par ns.length h w

/-- What happens to a compound (lines 25-36): words marked with `ToDo`, or the words left in the tree and the words of the new multiword token. -/
inductive Out
  | nonCatena (marked : List Nat)
  | outside (marked : List Nat)
  | joined (left members : List Nat)
deriving DecidableEq

/-- Lines 23-36 for the words `ws` of a compound, of which `hyp` are hyphens. -/
def join (par : Nat → Nat) (ns ws : List Nat) (hyp : Nat → Bool) : Out :=
  if (heads par ws).length > 1 then .nonCatena (heads par ws)
  else if cuckolds par ns ws ≠ [] then .outside (cuckolds par ns ws)
  else .joined (removeAll par ns (ws.filter hyp)) (ws.filter fun w => !hyp w)

theorem join_joined {par : Nat → Nat} {ns ws : List Nat} {hyp : Nat → Bool} {left members : List Nat} (h : join par ns ws hyp = .joined left members) :
    (heads par ws).length ≤ 1 ∧ cuckolds par ns ws = [] ∧ left = removeAll par ns (ws.filter hyp) ∧ members = ws.filter fun w => !hyp w := by
  unfold join at h
  split at h
  · cases h
  · split at h
    · cases h
    · rename_i h1 h2
      injection h with h3 h4
      exact ⟨by omega, by simpa using h2, h3.symm, h4.symm⟩

/-- `w` reaches `h` by going up inside `ws`. -/
inductive Inside (par : Nat → Nat) (ws : List Nat) (h : Nat) : Nat → Prop
  | here : Inside par ws h h
  | up {w : Nat} : par w ∈ ws → Inside par ws h (par w) → Inside par ws h w

/-! ## C208 -/

/-- In a tree (`depth` grows from parent to child) a joined compound is connected: it has one head, every other word reaches it inside the compound, and only the head has children
outside. -/
theorem C208_catena (par : Nat → Nat) (ns ws : List Nat) (hyp : Nat → Bool) (left members : List Nat) (depth : Nat → Nat)
    (tree : ∀ w ∈ ws, depth (par w) < depth w) (ne : ws ≠ []) (h : join par ns ws hyp = .joined left members) :
    ∃ top ∈ ws, par top ∉ ws ∧ (∀ w ∈ ws, Inside par ws top w) ∧ ∀ c ∈ ns, par c ∈ ws → c ∉ ws → par c = top := by
  obtain ⟨h1, h2, _, _⟩ := join_joined h
  have up : ∀ (k w : Nat), w ∈ ws → depth w ≤ k → ∃ top ∈ heads par ws, Inside par ws top w := by
    intro k
    induction k with
    | zero => intro w hw hk; have := tree w hw; omega
    | succ k ih =>
      intro w hw hk
      by_cases hp : par w ∈ ws
      · obtain ⟨top, ht, hi⟩ := ih (par w) hp (by have := tree w hw; omega)
        exact ⟨top, ht, .up hp hi⟩
      · exact ⟨w, by simp [heads, hw, hp], .here⟩
  obtain ⟨w0, hw0⟩ := List.exists_mem_of_ne_nil ws ne
  obtain ⟨top, ht, _⟩ := up _ w0 hw0 (Nat.le_refl _)
  have one : ∀ x ∈ heads par ws, x = top := by
    intro x hx
    match he : heads par ws, h1, hx, ht with
    | [y], _, hx, ht => simp at hx ht; rw [hx, ht]
    | [], _, hx, _ => simp at hx
    | _ :: _ :: _, h1, _, _ => simp at h1
  have ht' := ht
  simp only [heads, List.mem_filter, Bool.not_eq_true', List.contains_eq_mem, decide_eq_false_iff_not] at ht'
  refine ⟨top, ht'.1, ht'.2, ?_, ?_⟩
  · intro w hw
    obtain ⟨x, hx, hi⟩ := up _ w hw (Nat.le_refl _)
    rw [one x hx] at hi
    exact hi
  · intro c hc hp hn
    by_cases hh : par c ∈ heads par ws
    · exact one _ hh
    · have : par c ∈ cuckolds par ns ws := by
        simp only [cuckolds, List.mem_filter, Bool.and_eq_true, Bool.not_eq_true', List.contains_eq_mem, decide_eq_false_iff_not, List.any_eq_true,
          beq_iff_eq]
        exact ⟨hp, hh, c, hc, rfl, hn⟩
      rw [h2] at this
      cases this

/-- The other way round: a compound with one head below which all its words are and whose other words have no child outside is joined. -/
theorem C208_joins (par : Nat → Nat) (ns ws : List Nat) (hyp : Nat → Bool) (top : Nat) (nd : ws.Nodup) (h1 : ∀ w ∈ ws, par w ∉ ws → w = top)
    (h2 : ∀ c ∈ ns, par c ∈ ws → c ∉ ws → par c = top) (h3 : par top ∉ ws) :
    ∃ (left members : List Nat), join par ns ws hyp = .joined left members := by
  have hlen : ¬ (heads par ws).length > 1 := by
    intro hl
    have hn : (heads par ws).Nodup := nd.filter _
    match he : heads par ws, hl, hn with
    | x :: y :: _, _, hn =>
      have hx : x ∈ heads par ws := by rw [he]; simp
      have hy : y ∈ heads par ws := by rw [he]; simp
      simp only [heads, List.mem_filter, Bool.not_eq_true', List.contains_eq_mem, decide_eq_false_iff_not] at hx hy
      have e1 := h1 x hx.1 hx.2
      have e2 := h1 y hy.1 hy.2
      subst e1
      simp [e2] at hn
    | [], hl, _ => simp at hl
    | [_], hl, _ => simp at hl
  have hc : cuckolds par ns ws = [] := by
    refine List.filter_eq_nil_iff.mpr ?_
    intro w hw hcond
    simp only [Bool.and_eq_true, Bool.not_eq_true', List.contains_eq_mem, decide_eq_false_iff_not, List.any_eq_true, beq_iff_eq] at hcond
    obtain ⟨hh, c, hc, e, hn⟩ := hcond
    have := h2 c hc (by rw [e]; exact hw) hn
    rw [e] at this
    apply hh
    simp [heads, this, h3]
    exact this ▸ hw
  exact ⟨_, _, by unfold join; rw [if_neg hlen, if_neg (by simp [hc])]⟩

/-- The full claim: joining a compound takes exactly its hyphens out of the tree. -/
def KeepsWords (par : Nat → Nat) (ns ws : List Nat) (hyp : Nat → Bool) : Prop :=
  ∀ (left members : List Nat), join par ns ws hyp = .joined left members → left = ns.filter fun w => !(ws.contains w && hyp w)

theorem under_leaf {par : Nat → Nat} {ns : List Nat} {h : Nat} (r0 : par 0 = 0) (closed : ∀ w ∈ ns, par w ∈ ns ∨ par w = 0)
    (leaf : ∀ w ∈ ns, par w ≠ h) : ∀ (fuel w : Nat), w ∈ ns ∨ w = 0 → under par fuel h w = true → w = h := by
  intro fuel
  induction fuel with
  | zero => intro w _ hu; simpa [under] using hu
  | succ fuel ih =>
    intro w hw hu
    simp only [under, Bool.or_eq_true, beq_iff_eq] at hu
    rcases hu with hu | hu
    · exact hu
    · rcases hw with hw | hw
      · exact absurd (ih (par w) (closed w hw) hu) (leaf w hw)
      · rw [hw, r0] at hu
        rw [hw]
        exact ih 0 (Or.inr rfl) hu

/-- When no hyphen of the compound has children, exactly the hyphens leave the tree, and the multiword token consists of the other words of the compound, all still in the tree. -/
theorem C208_keeps_partial (par : Nat → Nat) (ns ws : List Nat) (hyp : Nat → Bool) (r0 : par 0 = 0) (closed : ∀ w ∈ ns, par w ∈ ns ∨ par w = 0)
    (leaf : ∀ x ∈ ws, hyp x = true → ∀ w ∈ ns, par w ≠ x) : KeepsWords par ns ws hyp := by
  intro left members h
  obtain ⟨_, _, rfl, rfl⟩ := join_joined h
  refine List.filter_congr ?_
  intro w hw
  congr 1
  rw [Bool.eq_iff_iff]
  simp only [List.any_eq_true, List.mem_filter, Bool.and_eq_true, List.contains_eq_mem, decide_eq_true_eq]
  constructor
  · rintro ⟨x, ⟨hx, hh⟩, hu⟩
    have := under_leaf (ns := ns) r0 closed (leaf x hx hh) _ w (Or.inl hw) hu
    rw [this]
    exact ⟨hx, hh⟩
  · rintro ⟨hx, hh⟩
    exact ⟨w, ⟨hx, hh⟩, by cases ns.length <;> simp [under]⟩

/-- The members of the multiword token are the words of the compound that are no hyphens, in their order. -/
theorem C208_members (par : Nat → Nat) (ns ws : List Nat) (hyp : Nat → Bool) (left members : List Nat) (h : join par ns ws hyp = .joined left members) :
    members.Sublist ws ∧ ∀ w, w ∈ members ↔ w ∈ ws ∧ hyp w = false := by
  obtain ⟨_, _, _, rfl⟩ := join_joined h
  exact ⟨List.filter_sublist .., fun w => by simp⟩

/-- For every joined compound: a word that hangs on one of its hyphens is deleted with the hyphen. If it is a word of the compound, the multiword token has a word that is not in
the tree any more. -/
theorem C208_keeps_violated (par : Nat → Nat) (ns ws : List Nat) (hyp : Nat → Bool) (left members : List Nat) (h : join par ns ws hyp = .joined left members)
    (x w : Nat) (hx : x ∈ ws) (hh : hyp x = true) (hw : w ∈ ns) (hp : par w = x) (hn : hyp w = false) :
    w ∉ left ∧ (w ∈ ws → w ∈ members) ∧ ¬ KeepsWords par ns ws hyp := by
  have hout : w ∉ left := by
    obtain ⟨_, _, rfl, _⟩ := join_joined h
    simp only [removeAll, List.mem_filter, not_and, Bool.not_eq_true', Bool.not_eq_false, List.any_eq_true]
    intro _
    refine ⟨x, ⟨hx, hh⟩, ?_⟩
    cases ns with
    | nil => cases hw
    | cons n ns => simp only [List.length_cons, under, hp]; cases ns.length <;> simp [under]
  refine ⟨hout, fun hw' => ((C208_members par ns ws hyp left members h).2 w).mpr ⟨hw', hn⟩, ?_⟩
  intro hk
  apply hout
  rw [hk left members h]
  simp [hw, hn]

/-- Nothing is deleted when the compound is not joined; the words marked are words of the compound, and there are some. -/
theorem C208_marks (par : Nat → Nat) (ns ws : List Nat) (hyp : Nat → Bool) (m : List Nat)
    (h : join par ns ws hyp = .nonCatena m ∨ join par ns ws hyp = .outside m) : m ≠ [] ∧ ∀ w ∈ m, w ∈ ws ∧
      (par w ∉ ws ∨ ∃ c ∈ ns, par c = w ∧ c ∉ ws) := by
  unfold join at h
  split at h
  · rename_i h1
    rcases h with h | h <;> cases h
    refine ⟨by intro e; rw [e] at h1; simp at h1, ?_⟩
    intro w hw
    simp only [heads, List.mem_filter, Bool.not_eq_true', List.contains_eq_mem, decide_eq_false_iff_not] at hw
    exact ⟨hw.1, Or.inl hw.2⟩
  · split at h
    · rename_i h2
      rcases h with h | h <;> cases h
      refine ⟨h2, ?_⟩
      intro w hw
      simp only [cuckolds, List.mem_filter, Bool.and_eq_true, Bool.not_eq_true', List.contains_eq_mem, decide_eq_false_iff_not, List.any_eq_true,
        beq_iff_eq] at hw
      obtain ⟨hw, _, c, hc, e, hn⟩ := hw
      exact ⟨hw, Or.inr ⟨c, hc, e, hn⟩⟩
    · rcases h with h | h <;> cases h

/-- "a - b ," with everything hanging on "a" (1): the hyphen (2) goes. With everything hanging on the hyphen, all words go, and the multiword token is made of deleted words. -/
def flat : Nat → Nat := fun w => if w = 1 then 0 else if w = 0 then 0 else 1
def onHyphen : Nat → Nat := fun w => if w = 2 then 0 else if w = 0 then 0 else 2
example : join flat [1, 2, 3, 4] [1, 2, 3] (fun w => w == 2) = .joined [1, 3, 4] [1, 3] := by decide
example : join onHyphen [1, 2, 3, 4] [1, 2, 3] (fun w => w == 2) = .joined [] [1, 3] := by decide
example : join (fun w => if w = 3 then 2 else 0) [1, 2, 3] [1, 2, 3] (fun w => w == 2) = .nonCatena [1, 2] := by decide

end Verif.Text.Hyphen
