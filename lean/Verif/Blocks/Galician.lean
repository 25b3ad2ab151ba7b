import Verif.Blocks.GoogleSwap

/-!
# Property C223: ud.gl.To2 turns copulas, prepositions and punctuation round

Source: `udapi/block/ud/gl/to2.py:7-63`. The tree is given by parents and relations as in `Verif/Blocks/GoogleSwap.lean`; the words are given in their order. `serEstar` says that the lemma is
"ser" or "estar" (not so for the technical root), `adp` that the UPOS is ADP, CONJ or PART, `pun` that it is PUNCT, `pref` is `ADP_HEAD_PREFERENCES` by UPOS. The ToDo marks are not modelled.
-/

namespace Verif.Blocks.Galician
open Verif.Blocks.GoogleSwap

inductive Rel
  | cop | xcomp | case | punct | root | other (n : Nat)
deriving DecidableEq

structure Env where
  words : List Nat
  serEstar : Nat → Bool
  adp : Nat → Bool
  pun : Nat → Bool
  pref : Nat → Int

abbrev S := (Nat → Nat) × (Nat → Rel)

/-- Lines 24-39 -/
def copula (e : Env) (s : S) (n : Nat) : S :=
  if s.2 n = .cop then
    if e.serEstar (s.1 n) then (promote s.1 (fun _ => true) n (s.1 n), fun x => if x = s.1 n then .cop else if x = n then s.2 (s.1 n) else s.2 x)
    else (s.1, fun x => if x = n then .xcomp else s.2 x)
  else s

def children (e : Env) (par : Nat → Nat) (n : Nat) : List Nat := e.words.filter fun c => par c == n

/-- The first of `sorted(children, key=lambda n: -preference)` for `c :: cs`: sorting is stable, so this is the first of those with the highest preference. -/
def best (pref : Nat → Int) : Nat → List Nat → Nat
  | c, [] => c
  | c, d :: ds => if pref c < pref d then best pref d ds else best pref c ds

/-- Lines 50-54 and 58-62: the best child takes the place of `n`; `n` and its other children are hung on it. -/
def lower (e : Env) (par : Nat → Nat) (n : Nat) : Nat → Nat :=
  match children e par n with
  | [] => par
  | c :: cs => promote par (fun _ => true) (best e.pref c cs) n

/-- Does line 45-54 or 57-62 apply, if there are children? -/
def cand (e : Env) (rel : Nat → Rel) (n : Nat) : Bool := (decide (rel n = .case) && e.adp n) || (decide (rel n = .punct) && e.pun n)

/-- `process_node` (the conditions on `case` and `punct` exclude each other, and the relations do not change in between). -/
def step (e : Env) (s : S) (n : Nat) : S :=
  if cand e (copula e s n).2 n then (lower e (copula e s n).1 n, (copula e s n).2) else copula e s n

def block (e : Env) (s : S) : S := e.words.foldl (step e) s

theorem best_mem (pref : Nat → Int) : ∀ (cs : List Nat) (c : Nat), best pref c cs ∈ c :: cs
  | [], c => by simp [best]
  | d :: ds, c => by
    unfold best
    split
    · exact List.mem_cons_of_mem _ (best_mem pref ds d)
    · rcases List.mem_cons.mp (best_mem pref ds c) with h | h
      · rw [h]; exact List.mem_cons_self ..
      · exact List.mem_cons_of_mem _ (List.mem_cons_of_mem _ h)

theorem best_ge (pref : Nat → Int) : ∀ (cs : List Nat) (c : Nat), pref c ≤ pref (best pref c cs)
  | [], c => by simp [best]
  | d :: ds, c => by
    unfold best
    split
    · rename_i h
      have := best_ge pref ds d
      omega
    · exact best_ge pref ds c

/-- The new head: a child with the highest preference, and every child before it has a lower one. -/
theorem C223_best (pref : Nat → Int) : ∀ (cs : List Nat) (c : Nat), ∃ a b, c :: cs = a ++ best pref c cs :: b ∧ (∀ x ∈ c :: cs, pref x ≤ pref (best pref c cs)) ∧
    ∀ x ∈ a, pref x < pref (best pref c cs)
  | [], c => ⟨[], [], by simp [best]⟩
  | d :: ds, c => by
    unfold best
    split
    · rename_i h
      obtain ⟨a, b, h1, h2, h3⟩ := C223_best pref ds d
      have hd := best_ge pref ds d
      refine ⟨c :: a, b, by rw [h1, List.cons_append], ?_, ?_⟩
      · intro x hx
        rcases List.mem_cons.mp hx with rfl | hx
        · omega
        · exact h2 x hx
      · intro x hx
        rcases List.mem_cons.mp hx with rfl | hx
        · omega
        · exact h3 x hx
    · rename_i h
      obtain ⟨a, b, h1, h2, h3⟩ := C223_best pref ds c
      have hc := best_ge pref ds c
      cases a with
      | nil =>
        rw [List.nil_append] at h1
        injection h1 with h1 h1'
        refine ⟨[], d :: ds, by rw [← h1]; rfl, ?_, by simp⟩
        intro x hx
        rcases List.mem_cons.mp hx with rfl | hx
        · exact hc
        · rcases List.mem_cons.mp hx with rfl | hx
          · omega
          · exact h2 x (List.mem_cons_of_mem _ hx)
      | cons y a =>
        rw [List.cons_append] at h1
        injection h1 with h1 h1'
        subst h1
        refine ⟨c :: d :: a, b, by rw [List.cons_append, List.cons_append, ← h1'], ?_, ?_⟩
        · intro x hx
          rcases List.mem_cons.mp hx with rfl | hx
          · exact hc
          · rcases List.mem_cons.mp hx with rfl | hx
            · omega
            · exact h2 x (List.mem_cons_of_mem _ hx)
        · intro x hx
          have hcl := h3 c (List.mem_cons_self ..)
          rcases List.mem_cons.mp hx with rfl | hx
          · exact hcl
          · rcases List.mem_cons.mp hx with rfl | hx
            · omega
            · exact h3 x (List.mem_cons_of_mem _ hx)

theorem lower_cases (e : Env) (par : Nat → Nat) (n : Nat) :
    (children e par n = [] ∧ lower e par n = par) ∨ ∃ c, c ∈ e.words ∧ par c = n ∧ lower e par n = promote par (fun _ => true) c n := by
  unfold lower
  cases h : children e par n with
  | nil => exact Or.inl ⟨rfl, rfl⟩
  | cons c cs =>
    right
    have hm := best_mem e.pref cs c
    rw [← h] at hm
    unfold children at hm
    rw [List.mem_filter, beq_iff_eq] at hm
    exact ⟨_, hm.1, hm.2, rfl⟩

theorem copula_cases (e : Env) (s : S) (n : Nat) :
    copula e s n = s ∨ (s.2 n = .cop ∧ e.serEstar (s.1 n) = false ∧ copula e s n = (s.1, fun x => if x = n then .xcomp else s.2 x)) ∨
    (s.2 n = .cop ∧ e.serEstar (s.1 n) = true ∧
      copula e s n = (promote s.1 (fun _ => true) n (s.1 n), fun x => if x = s.1 n then .cop else if x = n then s.2 (s.1 n) else s.2 x)) := by
  unfold copula
  by_cases h : s.2 n = .cop
  · rw [if_pos h]
    cases g : e.serEstar (s.1 n) with
    | true => exact Or.inr (Or.inr ⟨h, rfl, by simp⟩)
    | false => exact Or.inr (Or.inl ⟨h, rfl, by simp⟩)
  · rw [if_neg h]; exact Or.inl rfl

/-- What is kept: a tree in which `root` is the relation of exactly the words on the technical root. -/
def Good (s : S) : Prop := Tree s.1 ∧ ∀ x, x ≠ 0 → (s.2 x = .root ↔ s.1 x = 0)

theorem copula_good {e : Env} (h0 : e.serEstar 0 = false) {s : S} {n : Nat} (hn : n ≠ 0) (h : Good s) : Good (copula e s n) := by
  obtain ⟨ht, hr⟩ := h
  rcases copula_cases e s n with g | ⟨g1, _, g⟩ | ⟨g1, g2, g⟩
  · rw [g]; exact ⟨ht, hr⟩
  · rw [g]
    refine ⟨ht, ?_⟩
    intro x hx
    show (if x = n then Rel.xcomp else s.2 x) = .root ↔ s.1 x = 0
    by_cases e1 : x = n
    · subst e1
      rw [if_pos rfl]
      constructor
      · intro k; cases k
      · intro k; rw [(hr x hx).mpr k] at g1; cases g1
    · rw [if_neg e1]; exact hr x hx
  · rw [g]
    have hp0 : s.1 n ≠ 0 := by intro k; rw [k, h0] at g2; cases g2
    have hpn : s.1 n ≠ n := (no_cycle ht hn).1
    refine ⟨promote_tree ht _ rfl hp0, ?_⟩
    intro x hx
    show (if x = s.1 n then Rel.cop else if x = n then s.2 (s.1 n) else s.2 x) = .root ↔ promote s.1 (fun _ => true) n (s.1 n) x = 0
    unfold promote
    by_cases e1 : x = s.1 n
    · rw [if_pos e1, if_neg (by rw [e1]; exact hpn), if_pos e1]
      constructor
      · intro k; cases k
      · intro k; exact absurd k hn
    · rw [if_neg e1]
      by_cases e2 : x = n
      · rw [if_pos e2, if_pos e2]
        exact hr _ hp0
      · rw [if_neg e2, if_neg e2, if_neg e1]
        by_cases e3 : s.1 x = s.1 n
        · rw [if_pos ⟨e3, rfl⟩]
          constructor
          · intro k; have := (hr x hx).mp k; rw [e3] at this; exact absurd this hp0
          · intro k; exact absurd k hn
        · rw [if_neg (by rintro ⟨k, _⟩; exact e3 k)]
          exact hr x hx

theorem lower_good {e : Env} {s : S} {n : Nat} (hn : n ≠ 0) (hc : cand e s.2 n = true) (h : Good s) : Good (lower e s.1 n, s.2) := by
  obtain ⟨ht, hr⟩ := h
  have hnr : s.2 n ≠ .root := by
    intro k
    simp [cand, k] at hc
  have hp0 : s.1 n ≠ 0 := fun k => hnr ((hr n hn).mpr k)
  rcases lower_cases e s.1 n with ⟨_, g⟩ | ⟨c, _, hcn, g⟩
  · rw [g]; exact ⟨ht, hr⟩
  · rw [g]
    have hc0 : c ≠ 0 := by rintro rfl; rw [ht.1] at hcn; exact hn hcn.symm
    refine ⟨promote_tree ht _ hcn hn, ?_⟩
    intro x hx
    show s.2 x = .root ↔ promote s.1 (fun _ => true) c n x = 0
    unfold promote
    by_cases e1 : x = c
    · rw [if_pos e1]
      constructor
      · intro k; have := (hr x hx).mp k; rw [e1, hcn] at this; exact absurd this hn
      · intro k; exact absurd k hp0
    · rw [if_neg e1]
      by_cases e2 : x = n
      · rw [if_pos e2]
        constructor
        · intro k; rw [e2] at k; exact absurd k hnr
        · intro k; exact absurd k hc0
      · rw [if_neg e2]
        by_cases e3 : s.1 x = n
        · rw [if_pos ⟨e3, rfl⟩]
          constructor
          · intro k; have := (hr x hx).mp k; rw [e3] at this; exact absurd this hn
          · intro k; exact absurd k hc0
        · rw [if_neg (by rintro ⟨k, _⟩; exact e3 k)]
          exact hr x hx

/-- The block leaves a tree, and `root` the relation of exactly the words on the technical root, if it was so before. -/
theorem C223_tree (e : Env) (h0 : e.serEstar 0 = false) (hw : 0 ∉ e.words) (s : S) (ht : Tree s.1) (hr : ∀ x, x ≠ 0 → (s.2 x = .root ↔ s.1 x = 0)) :
    Tree (block e s).1 ∧ ∀ x, x ≠ 0 → ((block e s).2 x = .root ↔ (block e s).1 x = 0) := by
  have key : ∀ (ns : List Nat) (s : S), 0 ∉ ns → Good s → Good (ns.foldl (step e) s) := by
    intro ns
    induction ns with
    | nil => intro s _ h; exact h
    | cons n ns ih =>
      intro s hn h
      rw [List.mem_cons] at hn
      rw [List.foldl_cons]
      refine ih _ (fun k => hn (Or.inr k)) ?_
      have hn0 : n ≠ 0 := fun k => hn (Or.inl k.symm)
      have h1 := copula_good h0 hn0 h
      unfold step
      split
      · rename_i hc; exact lower_good hn0 hc h1
      · exact h1
  exact key e.words s hw ⟨ht, hr⟩

/-- One complement `n` of a copula `v`: it takes the place and relation of the copula, which becomes its `cop`; all other children of the copula move to it and nothing else changes.
Below other verbs it becomes `xcomp` and the tree stays. -/
theorem C223_copula (e : Env) (s : S) (n v : Nat) (ht : Tree s.1) (hn : n ≠ 0) (hv : s.1 n = v) (hv0 : v ≠ 0) (hc : s.2 n = .cop) :
    (e.serEstar v = true → (copula e s n).1 n = s.1 v ∧ (copula e s n).2 n = s.2 v ∧ (copula e s n).1 v = n ∧ (copula e s n).2 v = .cop ∧
      (∀ x, x ≠ n → s.1 x = v → (copula e s n).1 x = n) ∧ (∀ x, x ≠ n → x ≠ v → s.1 x ≠ v → (copula e s n).1 x = s.1 x) ∧ (∀ x, x ≠ n → x ≠ v → (copula e s n).2 x = s.2 x)) ∧
    (e.serEstar v = false → (copula e s n).1 = s.1 ∧ (copula e s n).2 n = .xcomp ∧ ∀ x, x ≠ n → (copula e s n).2 x = s.2 x) := by
  subst hv
  have hpn : s.1 n ≠ n := (no_cycle ht hn).1
  have hpp : s.1 (s.1 n) ≠ s.1 n := (no_cycle ht hv0).1
  constructor
  · intro g
    unfold copula
    rw [if_pos hc, g]
    simp only [if_true]
    refine ⟨by simp [promote], by simp [Ne.symm hpn], by simp [promote, hpn], trivial, ?_, ?_, ?_⟩
    · intro x g1 g2
      have g3 : x ≠ s.1 n := by rintro rfl; exact hpp g2
      simp [promote, g1, g3, g2]
    · intro x g1 g2 g3; simp [promote, g1, g2, g3]
    · intro x g1 g2; simp [g1, g2]
  · intro g
    unfold copula
    rw [if_pos hc, g]
    simp only [Bool.false_eq_true, if_false]
    exact ⟨trivial, by simp, fun x g1 => by simp [g1]⟩

/-- If the complement stands before its copula, the copula does not keep `cop`: when its turn comes, it gets `xcomp`, since its new head is no copula. -/
theorem C223_before_violated (e : Env) (s : S) (n v : Nat) (ht : Tree s.1) (hn : n ≠ 0) (hw : e.words = [n, v]) (hv : s.1 n = v) (hv0 : v ≠ 0) (hc : s.2 n = .cop)
    (h1 : e.serEstar v = true) (h2 : e.serEstar n = false) (h3 : e.adp n = false ∧ e.pun n = false) :
    (block e s).1 v = n ∧ (block e s).2 v = .xcomp := by
  have hc' := (C223_copula e s n v ht hn hv hv0 hc).1 h1
  have hs1 : step e s n = copula e s n := by
    unfold step
    rw [if_neg]
    simp [cand, h3.1, h3.2]
  unfold block
  rw [hw]
  simp only [List.foldl_cons, List.foldl_nil]
  rw [hs1]
  have h5 : copula e (copula e s n) v = ((copula e s n).1, fun x => if x = v then .xcomp else (copula e s n).2 x) := by
    have key : ∀ t : S, t.1 v = n → t.2 v = .cop → copula e t v = (t.1, fun x => if x = v then .xcomp else t.2 x) := by
      intro t k1 k2
      unfold copula
      rw [if_pos k2, k1, h2]
      simp
    exact key _ hc'.2.2.1 hc'.2.2.2.1
  unfold step
  rw [h5]
  have h6 : cand e (fun x => if x = v then .xcomp else (copula e s n).2 x) v = false := by simp [cand]
  rw [if_neg (by rw [h6]; simp)]
  exact ⟨hc'.2.2.1, by simp⟩

/-- A word that is turned round has no children directly afterwards. -/
theorem C223_childless (e : Env) (par : Nat → Nat) (n : Nat) (ht : Tree par) (hn : n ≠ 0) (hall : ∀ x, par x ≠ 0 → x ∈ e.words) : ∀ x, lower e par n x ≠ n := by
  intro x
  have hall' : ∀ x, par x = n → x ∈ e.words := fun x h => hall x (by rw [h]; exact hn)
  rcases lower_cases e par n with ⟨g1, g⟩ | ⟨c, _, hcn, g⟩
  · rw [g]
    intro k
    have : x ∈ children e par n := List.mem_filter.mpr ⟨hall' x k, by simp [k]⟩
    rw [g1] at this
    cases this
  · rw [g]
    have hcn' : c ≠ n := by rintro rfl; exact (no_cycle ht hn).1 hcn
    unfold promote
    by_cases e1 : x = c
    · rw [if_pos e1]; exact (no_cycle ht hn).1
    · rw [if_neg e1]
      by_cases e2 : x = n
      · rw [if_pos e2]; exact hcn'
      · rw [if_neg e2]
        by_cases e3 : par x = n
        · rw [if_pos ⟨e3, rfl⟩]; exact hcn'
        · rw [if_neg (by rintro ⟨k, _⟩; exact e3 k)]; exact e3

/-- One preposition or punctuation `n` with children: the first child with the highest preference takes its place, `n` and the other children are hung on it, and nothing else moves. -/
theorem C223_places (e : Env) (par : Nat → Nat) (n : Nat) (ht : Tree par) (hn : n ≠ 0) (hc : ∃ x ∈ e.words, par x = n) :
    ∃ h a b, (e.words.filter fun c => par c == n) = a ++ h :: b ∧ (∀ x ∈ e.words, par x = n → e.pref x ≤ e.pref h) ∧ (∀ x ∈ a, e.pref x < e.pref h) ∧
      lower e par n h = par n ∧ lower e par n n = h ∧ (∀ x, x ≠ h → par x = n → lower e par n x = h) ∧ ∀ x, x ≠ h → x ≠ n → par x ≠ n → lower e par n x = par x := by
  obtain ⟨x, hx1, hx2⟩ := hc
  cases hch : children e par n with
  | nil =>
    have : x ∈ children e par n := List.mem_filter.mpr ⟨hx1, by simp [hx2]⟩
    rw [hch] at this; cases this
  | cons c cs =>
    obtain ⟨a, b, h1, h2, h3⟩ := C223_best e.pref cs c
    have hm := best_mem e.pref cs c
    have hcn : par (best e.pref c cs) = n := by
      rw [← hch] at hm
      have := (List.mem_filter.mp hm).2
      simpa using this
    have hne : n ≠ best e.pref c cs := by intro k; rw [← k] at hcn; exact (no_cycle ht hn).1 hcn
    have hl : lower e par n = promote par (fun _ => true) (best e.pref c cs) n := by simp [lower, hch]
    refine ⟨best e.pref c cs, a, b, ?_, ?_, h3, ?_, ?_, ?_, ?_⟩
    · have : (e.words.filter fun c => par c == n) = c :: cs := hch
      rw [this]; exact h1
    · intro y hy1 hy2
      refine h2 y ?_
      rw [← hch]
      exact List.mem_filter.mpr ⟨hy1, by simp [hy2]⟩
    · rw [hl]; simp [promote]
    · rw [hl]; simp [promote, hne]
    · intro y hy1 hy2
      have : y ≠ n := by rintro rfl; exact (no_cycle ht hn).1 hy2
      rw [hl]; simp [promote, hy1, hy2, this]
    · intro y hy1 hy2 hy3
      rw [hl]; simp [promote, hy1, hy2, hy3]

/-- The block leaves no children below these prepositions and punctuation, if none of them hangs on another one and there is no `cop` in the sentence. -/
theorem C223_none_left_partial (e : Env) (s : S) (ht : Tree s.1) (hw : 0 ∉ e.words) (hall : ∀ x, s.1 x ≠ 0 → x ∈ e.words) (hcop : ∀ x ∈ e.words, s.2 x ≠ .cop)
    (hcc : ∀ x, x ≠ 0 → cand e s.2 x = true → s.1 x = 0 ∨ cand e s.2 (s.1 x) = false) (h0 : cand e s.2 0 = false) :
    (block e s).2 = s.2 ∧ ∀ n ∈ e.words, cand e s.2 n = true → ∀ x, (block e s).1 x ≠ n := by
  have hcc' : ∀ x, cand e s.2 x = true → cand e s.2 (s.1 x) = false := by
    intro x hx
    by_cases h : x = 0
    · rw [h, h0] at hx; cases hx
    · rcases hcc x h hx with k | k
      · rw [k]; exact h0
      · exact k
  have key : ∀ (ns done : List Nat) (s' : S), (∀ n ∈ ns, n ∈ e.words) → s'.2 = s.2 → Tree s'.1 → (∀ x, s'.1 x ≠ 0 → x ∈ e.words) →
      (∀ x, cand e s.2 x = true → cand e s.2 (s'.1 x) = false) → (∀ n ∈ done, cand e s.2 n = true → ∀ x, s'.1 x ≠ n) →
      (ns.foldl (step e) s').2 = s.2 ∧ ∀ n, n ∈ done ∨ n ∈ ns → cand e s.2 n = true → ∀ x, (ns.foldl (step e) s').1 x ≠ n := by
    intro ns
    induction ns with
    | nil => intro done s' _ h1 _ _ _ h5; exact ⟨h1, fun n hn => h5 n (hn.elim id (by simp))⟩
    | cons m ns ih =>
      intro done s' hns h1 h2 h3 h4 h5
      rw [List.foldl_cons]
      have hm := hns m (List.mem_cons_self ..)
      have hm0 : m ≠ 0 := by rintro rfl; exact hw hm
      have hcop' : copula e s' m = s' := by
        unfold copula
        rw [if_neg (by rw [h1]; exact hcop m hm)]
      have hres : ∀ s2, s2 = step e s' m → s2.2 = s.2 ∧ Tree s2.1 ∧ (∀ x, s2.1 x ≠ 0 → x ∈ e.words) ∧ (∀ x, cand e s.2 x = true → cand e s.2 (s2.1 x) = false) ∧
          (∀ n ∈ m :: done, cand e s.2 n = true → ∀ x, s2.1 x ≠ n) := by
        rintro s2 rfl
        unfold step
        rw [hcop', h1]
        cases hcm : cand e s.2 m with
        | false =>
          simp only [Bool.false_eq_true, if_false]
          refine ⟨h1, h2, h3, h4, ?_⟩
          intro n hn hcn
          rcases List.mem_cons.mp hn with rfl | hn
          · rw [hcm] at hcn; cases hcn
          · exact h5 n hn hcn
        | true =>
          simp only [if_true]
          refine ⟨trivial, ?_⟩
          have hless := C223_childless e s'.1 m h2 hm0 h3
          rcases lower_cases e s'.1 m with ⟨_, g⟩ | ⟨c, hcw, hcm', g⟩
          · rw [g] at hless ⊢
            refine ⟨h2, h3, h4, ?_⟩
            intro n hn hcn
            rcases List.mem_cons.mp hn with rfl | hn
            · exact hless
            · exact h5 n hn hcn
          · rw [g] at hless ⊢
            have hcc0 : cand e s.2 c = false := by
              cases k : cand e s.2 c with
              | false => rfl
              | true => have := h4 c k; rw [hcm', hcm] at this; cases this
            have hpm := h4 m hcm
            have hval : ∀ x, promote s'.1 (fun _ => true) c m x = s'.1 m ∨ promote s'.1 (fun _ => true) c m x = c ∨ promote s'.1 (fun _ => true) c m x = s'.1 x := by
              intro x
              unfold promote
              split
              · exact Or.inl rfl
              · split
                · exact Or.inr (Or.inl rfl)
                · split
                  · exact Or.inr (Or.inl rfl)
                  · exact Or.inr (Or.inr rfl)
            refine ⟨promote_tree h2 _ hcm' hm0, ?_, ?_, ?_⟩
            · intro x hx
              by_cases k : x ∈ e.words
              · exact k
              · exfalso
                have hx0 : s'.1 x = 0 := Classical.byContradiction fun q => k (h3 x q)
                have h6 : x ≠ c := by rintro rfl; exact k hcw
                have h7 : x ≠ m := by rintro rfl; exact k hm
                unfold promote at hx
                rw [if_neg h6, if_neg h7, if_neg (by rw [hx0]; rintro ⟨q, _⟩; exact hm0 q.symm)] at hx
                exact hx hx0
            · intro x hx
              rcases hval x with k | k | k
              · rw [k]; exact hpm
              · rw [k]; exact hcc0
              · rw [k]; exact h4 x hx
            · intro n hn hcn x
              rcases List.mem_cons.mp hn with rfl | hn
              · exact hless x
              · rcases hval x with k | k | k
                · rw [k]; rintro rfl; rw [hpm] at hcn; cases hcn
                · rw [k]; rintro rfl; rw [hcc0] at hcn; cases hcn
                · rw [k]; exact h5 n hn hcn x
      obtain ⟨q1, q2, q3, q4, q5⟩ := hres _ rfl
      have := ih (m :: done) _ (fun n hn => hns n (List.mem_cons_of_mem _ hn)) q1 q2 q3 q4 q5
      refine ⟨this.1, fun n hn => this.2 n ?_⟩
      rcases hn with hn | hn
      · exact Or.inl (List.mem_cons_of_mem _ hn)
      · rcases List.mem_cons.mp hn with rfl | hn
        · exact Or.inl (List.mem_cons_self ..)
        · exact Or.inr hn
  have := key e.words [] s (fun n hn => hn) rfl ht hall hcc' (by simp)
  exact ⟨this.1, fun n hn => this.2 n (Or.inr hn)⟩

/-- A preposition (or punctuation) below a later one takes it as its child, although it has been dealt with before. -/
theorem C223_chain_violated (e : Env) (s : S) (x y : Nat) (hw : e.words = [x, y]) (hne : x ≠ y) (hy : s.1 x = y) (hyp : s.1 y ≠ x ∧ s.1 y ≠ y) (hx : cand e s.2 x = true)
    (hc : cand e s.2 y = true) : cand e (block e s).2 x = true ∧ (block e s).1 y = x := by
  have hncop : ∀ z, cand e s.2 z = true → s.2 z ≠ .cop := by
    intro z hz k
    simp [cand, k] at hz
  have h1 : step e s x = s := by
    unfold step copula
    rw [if_neg (hncop x hx), if_pos hx]
    have : children e s.1 x = [] := by
      unfold children
      rw [hw]
      simp [hy, Ne.symm hne, hyp.1]
    simp only [lower, this]
  have h2 : step e s y = (promote s.1 (fun _ => true) x y, s.2) := by
    unfold step copula
    rw [if_neg (hncop y hc), if_pos hc]
    have : children e s.1 y = [x] := by
      unfold children
      rw [hw]
      simp [hy, hyp.2]
    simp only [lower, this, best]
  unfold block
  rw [hw]
  simp only [List.foldl_cons, List.foldl_nil]
  rw [h1, h2]
  exact ⟨hx, by simp [promote, Ne.symm hne]⟩

def exE : Env := ⟨[1, 2, 3, 4], fun x => x == 2, fun x => x == 3, fun _ => false, fun x => if x = 4 then 10 else 0⟩
/-- "bonito é de casa" with the complement before the copula and a preposition above its noun -/
def exS : S := (fun x => if x = 1 then 2 else if x = 3 then 2 else if x = 4 then 3 else 0, fun x => if x = 1 then .cop else if x = 2 then .root else if x = 3 then .case else .other 0)

example : [1, 2, 3, 4].map (block exE exS).1 = [0, 1, 4, 1] ∧ [1, 2, 3, 4].map (block exE exS).2 = [.root, .xcomp, .case, .other 0] := by decide
example : best (fun x => if x = 2 ∨ x = 3 then 9 else 0) 1 [2, 3, 4] = 2 := by decide

end Verif.Blocks.Galician
