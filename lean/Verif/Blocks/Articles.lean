import Verif.Blocks.GoogleSwap

/-!
# Property C227: where the article of a split contraction is hung

Sources: `postprocess_mwt` of `udapi/block/ud/es/addmwt.py:101-109`, `udapi/block/ud/fr/addmwt.py:61-82` and `udapi/block/ud/cs/addmwt.py:186-188`, run after `ud.AddMwt` has split a token into
`words[0]` (number `w`) and `words[1]` (number `w + 1`). The words are numbered from 1 to `n`, 0 is the technical root. The tests on forms, tags and relations are parameters. The `parent` setter
(`udapi/core/node.py:311-346`) refuses cycles.
-/

namespace Verif.Blocks.Articles
open Verif.Blocks.GoogleSwap

inductive Head
  | found (h : Nat)
  | crash   -- AttributeError on None
  | more    -- still climbing
deriving DecidableEq

/-- The loop of the Spanish block: `head.parent.precedes(head)` is evaluated before `head.is_root()`. -/
def climbEs (noun : Nat → Bool) (par : Nat → Nat) (nxt : Nat) : Nat → Nat → Head
  | 0, _ => .more
  | k + 1, h =>
    if noun h then .found h
    else if h = 0 then .crash
    else if par h < h then .found nxt
    else climbEs noun par nxt k (par h)

/-- The loop of the French block, together with the test for the technical root after it. -/
def climbFr (noun : Nat → Bool) (par : Nat → Nat) (nxt : Nat) : Nat → Nat → Head
  | 0, _ => .more
  | k + 1, h =>
    if h = 0 then .found nxt
    else if noun h then .found h
    else if par h < h then .found nxt
    else climbFr noun par nxt k (par h)

/-- `d` is `x` or an ancestor of `x`, at most `n` steps up. -/
def reaches (par : Nat → Nat) (n x d : Nat) : Bool := (List.range (n + 1)).any fun k => iter par k x == d

def upd (par : Nat → Nat) (a h : Nat) : Nat → Nat := fun x => if x = a then h else par x

/-- The setter of `parent`; `none` for `CycleError` -/
def setParent (n : Nat) (par : Nat → Nat) (a h : Nat) : Option (Nat → Nat) :=
  if par a = h then some par else if reaches par n h a then none else some (upd par a h)

/-- `none`: an exception -/
def hang (n : Nat) (par : Nat → Nat) (a : Nat) : Head → Option (Nat → Nat)
  | .found h => setParent n par a h
  | _ => none

/-- Spanish; `contr`: the token is `al` or `del` -/
def postEs (n : Nat) (noun : Nat → Bool) (contr : Bool) (par : Nat → Nat) (w : Nat) : Option (Nat → Nat) :=
  if contr && decide (par (w + 1) < w + 1) then
    if w + 1 < n then hang n par (w + 1) (climbEs noun par (w + 2) (n + 1) (w + 2)) else none
  else some par

inductive Rel | fixed | case | other
deriving DecidableEq

/-- `words[0].descendants[-1]` -/
def lastDesc (n : Nat) (par : Nat → Nat) (w : Nat) : Option Nat := ((List.range (n + 1)).filter fun x => x != w && reaches par n x w).getLast?

/-- French, the tree; `contr`: the token is `du`, `des`, `au` or `aux` -/
def treeFr (n : Nat) (noun : Nat → Bool) (contr : Bool) (par : Nat → Nat) (w : Nat) : Option (Nat → Nat) :=
  if contr then
    match lastDesc n par w with
    | none => none
    | some d =>
      if d ≠ w + 1 then some par
      else if w < par w then setParent n par (w + 1) (par w)
      else if w + 1 < n then hang n par (w + 1) (climbFr noun par (w + 2) (n + 1) (w + 2))
      else none
  else some par

/-- French, the relations -/
def relFr (n : Nat) (par : Nat → Nat) (w : Nat) (rel : Nat → Rel) : Nat → Rel :=
  fun x =>
    if x = w + 1 ∧ par (w + 1) = w ∧ (lastDesc n par w).map rel = some .fixed then .fixed
    else if x = w ∧ par w < w ∧ rel (w - 1) ≠ .other then .fixed
    else rel x

/-- Czech; `fixed`: the relation of the first word is `fixed` -/
def postCs (n : Nat) (verb : Nat → Bool) (fixed : Bool) (par : Nat → Nat) (w : Nat) : Option (Nat → Nat) :=
  if fixed then
    if par w = 0 then none
    else if verb (par (par w)) then setParent n par (w + 1) (par (par w)) else some par
  else some par

/-! ## Lemmas -/

theorem iter_leaf {par : Nat → Nat} {a : Nat} (hl : ∀ x, par x ≠ a) (h : Nat) : ∀ (k y : Nat), y ≠ a → iter (upd par a h) k y = iter par k y
  | 0, _, _ => rfl
  | k + 1, y, hy => by
    rw [iter, iter]
    have : upd par a h y = par y := by simp [upd, hy]
    rw [this]
    exact iter_leaf hl h k (par y) (hl y)

theorem iter_ne {par : Nat → Nat} {a : Nat} (hl : ∀ x, par x ≠ a) : ∀ (k y : Nat), y ≠ a → iter par k y ≠ a
  | 0, _, hy => hy
  | k + 1, y, _ => iter_ne hl k (par y) (hl y)

theorem upd_tree {par : Nat → Nat} {a h : Nat} (ht : Tree par) (hl : ∀ x, par x ≠ a) (ha : a ≠ 0) (hh : h ≠ a) : Tree (upd par a h) := by
  refine ⟨by simp only [upd, if_neg (Ne.symm ha)]; exact ht.1, ?_⟩
  have other : ∀ y, y ≠ a → ∃ k, iter (upd par a h) k y = 0 := by
    intro y hy
    obtain ⟨k, hk⟩ := ht.2 y
    exact ⟨k, by rw [iter_leaf hl h k y hy]; exact hk⟩
  intro x
  by_cases hx : x = a
  · subst hx
    exact up_to (y := h) (by simp [upd]) (other h hh)
  · exact other x hx

/-- A word without children can be hung on any other word. -/
theorem setParent_leaf {n : Nat} {par : Nat → Nat} {a h : Nat} (hl : ∀ x, par x ≠ a) (hh : h ≠ a) : ∃ par', setParent n par a h = some par' ∧ ∀ x, par' x = upd par a h x := by
  unfold setParent
  by_cases h1 : par a = h
  · rw [if_pos h1]
    refine ⟨par, rfl, ?_⟩
    intro x
    unfold upd
    split
    · next e => rw [e, h1]
    · rfl
  · rw [if_neg h1]
    have : reaches par n h a = false := by
      unfold reaches
      rw [List.any_eq_false]
      intro k _
      have := iter_ne hl k h hh
      simpa using this
    rw [this]
    exact ⟨upd par a h, rfl, fun _ => rfl⟩

theorem setParent_tree {n : Nat} {par : Nat → Nat} {a h : Nat} (ht : Tree par) (hl : ∀ x, par x ≠ a) (ha : a ≠ 0) (hh : h ≠ a) :
    ∃ par', setParent n par a h = some par' ∧ Tree par' ∧ par' a = h ∧ ∀ x, x ≠ a → par' x = par x := by
  obtain ⟨par', e, hp⟩ := setParent_leaf (n := n) hl hh
  have : par' = upd par a h := funext hp
  subst this
  exact ⟨_, e, upd_tree ht hl ha hh, by simp [upd], fun x hx => by simp [upd, hx]⟩

/-- What the loops look for, starting from `s`: the first noun on the way up, if all steps before it go to the right, else `nxt`. -/
def Found (noun : Nat → Bool) (par : Nat → Nat) (nxt s r : Nat) : Prop :=
  ∃ k, (∀ j, j < k → noun (iter par j s) = false ∧ iter par j s < iter par (j + 1) s) ∧
    ((noun (iter par k s) = true ∧ r = iter par k s) ∨ (noun (iter par k s) = false ∧ par (iter par k s) < iter par k s ∧ r = nxt))

theorem climb_found {n : Nat} {noun : Nat → Bool} {par : Nat → Nat} {nxt : Nat} (ht : Tree par) (hp : ∀ x, par x ≤ n) :
    ∀ (fuel s : Nat), 0 < s → s ≤ n → nxt ≤ s → n - s < fuel →
      ∃ r, climbEs noun par nxt fuel s = .found r ∧ climbFr noun par nxt fuel s = .found r ∧ nxt ≤ r ∧ Found noun par nxt s r
  | 0, _, _, _, _, h => absurd h (by omega)
  | fuel + 1, s, h0, hn, hs, hf => by
    have hs0 : s ≠ 0 := by omega
    cases hN : noun s with
    | true => exact ⟨s, by simp [climbEs, hN], by simp [climbFr, hN, hs0], hs, 0, fun j hj => absurd hj (by omega), Or.inl ⟨hN, rfl⟩⟩
    | false =>
      by_cases hlt : par s < s
      · exact ⟨nxt, by simp [climbEs, hN, hs0, hlt], by simp [climbFr, hN, hs0, hlt], Nat.le_refl _, 0, fun j hj => absurd hj (by omega), Or.inr ⟨hN, hlt, rfl⟩⟩
      · have hne := (no_cycle ht hs0).1
        have hps := hp s
        obtain ⟨r, e1, e2, hr, k, hk, hend⟩ := climb_found (noun := noun) (nxt := nxt) ht hp fuel (par s) (by omega) (by omega) (by omega) (by omega)
        refine ⟨r, by simp [climbEs, hN, hs0, hlt, e1], by simp [climbFr, hN, hs0, hlt, e2], hr, k + 1, ?_, hend⟩
        intro j hj
        cases j with
        | zero => exact ⟨hN, by change s < par s; omega⟩
        | succ j => exact hk j (by omega)

/-! ## C227 -/

/-- Both loops end, without an exception, and find the same head: going up from the word after the article, the first noun or proper noun, if every step before it goes to the right; else
the word after the article. -/
theorem C227_head (n : Nat) (noun : Nat → Bool) (par : Nat → Nat) (w : Nat) (ht : Tree par) (hp : ∀ x, par x ≤ n) (hw : w + 1 < n) :
    ∃ r, climbEs noun par (w + 2) (n + 1) (w + 2) = .found r ∧ climbFr noun par (w + 2) (n + 1) (w + 2) = .found r ∧ w + 1 < r ∧ Found noun par (w + 2) (w + 2) r := by
  obtain ⟨r, e1, e2, hr, hF⟩ := climb_found (noun := noun) (nxt := w + 2) ht hp (n + 1) (w + 2) (by omega) (by omega) (Nat.le_refl _) (by omega)
  exact ⟨r, e1, e2, by omega, hF⟩

/-- Spanish: if the article has no children and is not the last word, there is no exception, the tree stays a tree, the article of a contraction hangs on a later word, and all other words stay. -/
theorem C227_es_partial (n : Nat) (noun : Nat → Bool) (contr : Bool) (par : Nat → Nat) (w : Nat) (ht : Tree par) (hp : ∀ x, par x ≤ n) (hl : ∀ x, par x ≠ w + 1) (hw : w + 1 < n) :
    ∃ par', postEs n noun contr par w = some par' ∧ Tree par' ∧ (contr = true → w + 1 < par' (w + 1)) ∧ (∀ x, x ≠ w + 1 → par' x = par x) ∧
      (par' (w + 1) = par (w + 1) ∨ Found noun par (w + 2) (w + 2) (par' (w + 1))) := by
  unfold postEs
  by_cases hc : (contr && decide (par (w + 1) < w + 1)) = true
  · rw [if_pos hc, if_pos hw]
    obtain ⟨r, e, _, hr, hF⟩ := C227_head n noun par w ht hp hw
    rw [e]
    obtain ⟨par', e', ht', ha, ho⟩ := setParent_tree (n := n) ht hl (by omega : w + 1 ≠ 0) (by omega : r ≠ w + 1)
    exact ⟨par', e', ht', fun _ => by rw [ha]; exact hr, ho, Or.inr (by rw [ha]; exact hF)⟩
  · rw [if_neg hc]
    refine ⟨par, rfl, ht, ?_, fun _ _ => rfl, Or.inl rfl⟩
    intro h
    have := (no_cycle ht (by omega : w + 1 ≠ 0)).1
    simp [h] at hc
    omega

/-- A contraction at the end of the sentence whose article hangs to the left raises an exception, in every sentence. -/
theorem C227_es_last_violated (n : Nat) (noun : Nat → Bool) (par : Nat → Nat) (w : Nat) (hw : w + 1 = n) (hlt : par (w + 1) < w + 1) : postEs n noun true par w = none := by
  unfold postEs
  rw [if_pos (by simpa using hlt), if_neg (by omega)]

theorem lastDesc_some {n : Nat} {par : Nat → Nat} {w : Nat} (hn : w + 1 ≤ n) (ha : par (w + 1) = w) : ∃ d, lastDesc n par w = some d ∧ w + 1 ≤ d ∧ d ≤ n := by
  have hm : w + 1 ∈ (List.range (n + 1)).filter fun x => x != w && reaches par n x w := by
    rw [List.mem_filter, List.mem_range]
    refine ⟨by omega, ?_⟩
    simp only [Bool.and_eq_true, bne_iff_ne, ne_eq, Nat.succ_ne_self, not_false_eq_true, true_and]
    unfold reaches
    rw [List.any_eq_true]
    exact ⟨1, by rw [List.mem_range]; omega, by simp [iter, ha]⟩
  have hs : ((List.range (n + 1)).filter fun x => x != w && reaches par n x w).Pairwise (· < ·) := List.Pairwise.filter _ List.pairwise_lt_range
  unfold lastDesc
  cases e : ((List.range (n + 1)).filter fun x => x != w && reaches par n x w).getLast? with
  | none => rw [List.getLast?_eq_none_iff] at e; rw [e] at hm; cases hm
  | some d =>
    refine ⟨d, rfl, ?_, ?_⟩
    · obtain ⟨pre, hpre⟩ := List.getLast?_eq_some_iff.mp e
      rw [hpre] at hm hs
      rcases List.mem_append.mp hm with h | h
      · exact Nat.le_of_lt ((List.pairwise_append.mp hs).2.2 _ h d (by simp))
      · rw [List.mem_singleton] at h; omega
    · have := List.mem_of_getLast? e
      rw [List.mem_filter, List.mem_range] at this
      omega

/-- French: if the article hangs on the preposition, has no children and is not the last word, there is no exception and the tree stays a tree; all other words stay; the article stays on the
preposition only if the token is no contraction or something after it hangs below the preposition, else it hangs on a later word: the head of the preposition if that comes later. -/
theorem C227_fr_partial (n : Nat) (noun : Nat → Bool) (contr : Bool) (par : Nat → Nat) (w : Nat) (ht : Tree par) (hp : ∀ x, par x ≤ n) (hl : ∀ x, par x ≠ w + 1) (ha : par (w + 1) = w)
    (hw : w + 1 < n) :
    ∃ par', treeFr n noun contr par w = some par' ∧ Tree par' ∧ (∀ x, x ≠ w + 1 → par' x = par x) ∧
      ((par' (w + 1) = w ∧ (contr = false ∨ ∃ d, lastDesc n par w = some d ∧ w + 1 < d)) ∨
       (contr = true ∧ w + 1 < par' (w + 1) ∧ if w < par w then par' (w + 1) = par w else Found noun par (w + 2) (w + 2) (par' (w + 1)))) := by
  unfold treeFr
  cases contr with
  | false => exact ⟨par, rfl, ht, fun _ _ => rfl, Or.inl ⟨ha, Or.inl rfl⟩⟩
  | true =>
    obtain ⟨d, hd, h1, _⟩ := lastDesc_some (n := n) (par := par) (w := w) (by omega) ha
    simp only [if_true, hd]
    by_cases h2 : d = w + 1
    · rw [if_neg (by simpa using h2)]
      by_cases h3 : w < par w
      · rw [if_pos h3]
        have hne : par w ≠ w + 1 := hl w
        obtain ⟨par', e', ht', ha', ho⟩ := setParent_tree (n := n) ht hl (by omega : w + 1 ≠ 0) hne
        exact ⟨par', e', ht', ho, Or.inr ⟨trivial, by rw [ha']; omega, by rw [if_pos h3]; exact ha'⟩⟩
      · rw [if_neg h3, if_pos hw]
        obtain ⟨r, _, e, hr, hF⟩ := C227_head n noun par w ht hp hw
        rw [e]
        obtain ⟨par', e', ht', ha', ho⟩ := setParent_tree (n := n) ht hl (by omega : w + 1 ≠ 0) (by omega : r ≠ w + 1)
        exact ⟨par', e', ht', ho, Or.inr ⟨trivial, by rw [ha']; exact hr, by rw [if_neg h3, ha']; exact hF⟩⟩
    · rw [if_pos h2]
      exact ⟨par, rfl, ht, fun _ _ => rfl, Or.inl ⟨ha, Or.inr ⟨d, by first | exact hd | rfl, by omega⟩⟩⟩

/-- A French contraction at the end of the sentence whose preposition hangs to the left raises an exception, in every sentence. -/
theorem C227_fr_last_violated (n : Nat) (noun : Nat → Bool) (par : Nat → Nat) (w : Nat) (hw : w + 1 = n) (ha : par (w + 1) = w) (hlt : par w ≤ w) : treeFr n noun true par w = none := by
  obtain ⟨d, hd, h1, h2⟩ := lastDesc_some (n := n) (par := par) (w := w) (by omega) ha
  have : d = w + 1 := by omega
  subst this
  unfold treeFr
  simp only [if_true, hd]
  rw [if_neg (by simp), if_neg (by omega), if_neg (by omega)]

/-- French: only the relations of the two words change, and only to `fixed`; the preposition becomes `fixed` exactly if it hangs to the left and the word before it is `case` or `fixed`. -/
theorem C227_rel (n : Nat) (par : Nat → Nat) (w : Nat) (rel : Nat → Rel) :
    (∀ x, x ≠ w → x ≠ w + 1 → relFr n par w rel x = rel x) ∧ (∀ x, relFr n par w rel x = rel x ∨ relFr n par w rel x = .fixed) ∧
    (rel w ≠ .fixed → (relFr n par w rel w = .fixed ↔ par w < w ∧ (rel (w - 1) = .case ∨ rel (w - 1) = .fixed))) ∧
    (par (w + 1) ≠ w → relFr n par w rel (w + 1) = rel (w + 1)) := by
  refine ⟨?_, ?_, ?_, ?_⟩
  · intro x h1 h2
    simp [relFr, h1, h2]
  · intro x
    unfold relFr
    split
    · exact Or.inr rfl
    · split
      · exact Or.inr rfl
      · exact Or.inl rfl
  · intro h
    unfold relFr
    rw [if_neg (by intro g; omega)]
    cases hr : rel (w - 1) <;> by_cases hlt : par w < w <;> simp [hlt, h]
  · intro h
    unfold relFr
    rw [if_neg (fun g => h g.2.1), if_neg (by intro g; omega)]

/-- Czech: if the first word does not hang on the technical root, there is no exception and the tree stays a tree; the second word, if it moves, hangs on the grandparent of the first, a verb. -/
theorem C227_cs_partial (n : Nat) (verb : Nat → Bool) (fixed : Bool) (par : Nat → Nat) (w : Nat) (ht : Tree par) (hl : ∀ x, par x ≠ w + 1) (hr : par w ≠ 0) :
    ∃ par', postCs n verb fixed par w = some par' ∧ Tree par' ∧ (∀ x, x ≠ w + 1 → par' x = par x) ∧
      par' (w + 1) = if fixed = true ∧ verb (par (par w)) = true then par (par w) else par (w + 1) := by
  unfold postCs
  cases fixed with
  | false => exact ⟨par, rfl, ht, fun _ _ => rfl, by simp⟩
  | true =>
    rw [if_pos rfl, if_neg hr]
    cases hv : verb (par (par w)) with
    | false => exact ⟨par, by simp, ht, fun _ _ => rfl, by simp⟩
    | true =>
      obtain ⟨par', e', ht', ha', ho⟩ := setParent_tree (n := n) ht hl (by omega : w + 1 ≠ 0) (hl (par w))
      exact ⟨par', by simpa using e', ht', ho, by simpa using ha'⟩

/-! ## Examples -/

/-- `a partir del año`: `partir` on `a`, `de` on `a`, `el` on `a` -/
def exPar : Nat → Nat := fun x => if x = 1 then 5 else if x = 2 ∨ x = 3 ∨ x = 4 then 1 else 0

example : (postEs 5 (fun x => x == 5) true exPar 3).map (fun p => (List.range 6).map p) = some [0, 5, 1, 1, 5, 0] := by decide
example : (postEs 4 (fun _ => false) true (fun x => if x = 4 then 3 else 0) 3).isNone = true := by decide
/-- `à partir du siècle` -/
def exFr : Nat → Nat := fun x => if x = 1 then 5 else if x = 2 ∨ x = 3 then 1 else if x = 4 then 3 else 0

example : (treeFr 5 (fun x => x == 5) true exFr 3).map (fun p => (List.range 6).map p) = some [0, 5, 1, 1, 5, 0] := by decide
example : (treeFr 4 (fun _ => false) true (fun x => if x = 4 then 3 else 0) 3).isNone = true := by decide
example : relFr 5 exFr 3 (fun x => if x = 2 then .fixed else .other) 3 = .fixed := by decide
example : (postCs 4 (fun x => x == 4) true (fun x => if x = 1 then 4 else if x = 2 then 1 else if x = 3 then 2 else 0) 2).map (fun p => (List.range 5).map p) = some [0, 4, 1, 4, 0] := by decide

end Verif.Blocks.Articles
